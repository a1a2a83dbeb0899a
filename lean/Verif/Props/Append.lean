import Verif.Props.Written
import Verif.Lemmas.Append
import Verif.Lemmas.KernelRfl
import Verif.Model.Insert

/-! # C73: adding lines at the end of a text adds items at the end of the root

A user adds an entry to a file by writing a line at its end. The theorems say what the library reads then: the entries that were
there, the comments at the end, the new entries. -/

namespace YamlSubset

open Spec

variable {T : CharTables}

/-- **C73** The texts that the theorems below are about show a document with a mapping. -/
theorem C73_mapping_before (T : CharTables) {leading pre c ds post x} (h : MappingLines T leading pre c ds post x) :
    parseYamlFile T x = .ok ⟨leading, pre.map .comment ++ [.yaml (.hash ds)] ++ post.map .comment⟩ := by
  cases h with
  | intro hh h hg =>
    cases hh with
    | @intro _ n _ _ _ hl hn hb hp =>
      refine C53_every_layout_parses _ _ _ ?_
      have := DocumentText.intro (n := n) hl hn hb hp (.hash h) (.lines (n := 0) hg (by simp))
      simpa [pad, List.append_assoc] using this

/-- **C73** ... or with a sequence. -/
theorem C73_sequence_before (T : CharTables) {leading pre c ds post x} (h : SequenceLines T leading pre c ds post x) :
    parseYamlFile T x = .ok ⟨leading, pre.map .comment ++ [.yaml (.array ds)] ++ post.map .comment⟩ := by
  cases h with
  | intro hh h hg =>
    cases hh with
    | @intro _ n _ _ _ hl hn hb hp =>
      refine C53_every_layout_parses _ _ _ ?_
      have := DocumentText.intro (n := n) hl hn hb hp (.array h) (.lines (n := 0) hg (by simp))
      simpa [pad, List.append_assoc] using this

/-- **C73** Lines with entries after a text whose root is a mapping, with the indentation of this mapping: the text is read as the entries
that were there, then the comments that were at the end, then the new entries. -/
theorem C73_append_entries (T : CharTables) {leading pre c ds post x cl ds' z post' tail} (h : MappingLines T leading pre c ds post x) (hc : ClosedEntries c ds)
    (hz : EntryTexts T (Written T) c .none cl ds' z) (ht : Tail cl c post' tail) :
    parseYamlFile T (x ++ pad c ++ z ++ tail) =
      .ok ⟨leading, pre.map .comment ++ [.yaml (.hash (ds ++ post.map .comment ++ ds'))] ++ post'.map .comment⟩ := by
  cases h with
  | intro hh h hg =>
    cases hh with
    | @intro _ n _ _ _ hl hn hb hp =>
      refine C53_every_layout_parses _ _ _ ?_
      have h1 := Lay.entries_next (nx := .key c) h rfl fun pre k v post hd cl x hv => by
        obtain ⟨a, y⟩ := v
        exact Lay.written_next (.key c) y a _ _ _ _ _ hv (by simp) (hc pre k _ post hd)
      have := DocumentText.intro (n := n) hl hn hb hp (.hash (Lay.entries_append h1 rfl hg hz)) ht
      simpa only [List.append_assoc] using this

/-- A line without indentation is not taken by a value before it. -/
theorem closed_margin (ds : List HashData) : ClosedEntries 0 ds := by
  intro pre k v post hd he
  clear hd
  generalize Holder.key = hold at he
  induction he with
  | here h => exact h.1 rfl
  | entry _ ih => exact ih
  | element _ ih => exact ih

/-- **C73** If the root is not indented, there is no other condition: lines with entries can be written after any text that ends with
a line break. -/
theorem C73_append_at_margin (T : CharTables) {leading pre ds post x cl ds' z post' tail} (h : MappingLines T leading pre 0 ds post x)
    (hz : EntryTexts T (Written T) 0 .none cl ds' z) (ht : Tail cl 0 post' tail) :
    parseYamlFile T (x ++ z ++ tail) = .ok ⟨leading, pre.map .comment ++ [.yaml (.hash (ds ++ post.map .comment ++ ds'))] ++ post'.map .comment⟩ := by
  simpa [pad] using C73_append_entries T h (closed_margin ds) hz ht

/-- **C73** The same for lines with elements after a text whose root is a sequence. -/
theorem C73_append_elements (T : CharTables) {leading pre c ds post x cl ds' z post' tail} (h : SequenceLines T leading pre c ds post x)
    (hc : ClosedElements ds) (hz : ElementTexts T (Written T) c .none cl ds' z) (ht : Tail cl c post' tail) :
    parseYamlFile T (x ++ pad c ++ z ++ tail) =
      .ok ⟨leading, pre.map .comment ++ [.yaml (.array (ds ++ post.map .comment ++ ds'))] ++ post'.map .comment⟩ := by
  cases h with
  | intro hh h hg =>
    cases hh with
    | @intro _ n _ _ _ hl hn hb hp =>
      refine C53_every_layout_parses _ _ _ ?_
      have h1 := Lay.elements_next (nx := .dash) h rfl fun pre v post hd cl x hv => by
        obtain ⟨a, y⟩ := v
        exact Lay.written_next .dash y a _ _ _ _ _ hv (by simp) (hc pre _ post hd)
      have := DocumentText.intro (n := n) hl hn hb hp (.array (Lay.elements_append h1 rfl hg hz)) ht
      simpa only [List.append_assoc] using this

/-- Inserting a new key into the root. -/
theorem insert_new_key {k : Str} {v : AliasedYaml} {leading pre : List Str} {ds : List HashData} (o : Bool) (hk : ∀ w, HashData.element ⟨k, w⟩ ∉ ds) :
    (Document.mk leading (pre.map .comment ++ [.yaml (.hash ds)])).insertIntoHash (.key k [] none) v o =
      (1, ⟨leading, pre.map .comment ++ [.yaml (.hash (ds ++ [.element ⟨k, v⟩]))]⟩) := by
  have go : ∀ (pre : List Str) (c : Nat), Document.overItems.go (Yaml.insertIntoHash (.key k [] none) v o) c (pre.map .comment ++ [.yaml (.hash ds)]) =
      (c + 1, pre.map .comment ++ [.yaml (.hash (ds ++ [.element ⟨k, v⟩]))]) := by
    intro pre
    induction pre with
    | nil =>
      have hi : Yaml.keyIndex k (.hash ds) = none := by
        simp only [Yaml.keyIndex, List.findIdx?_eq_none_iff]
        intro e he
        cases e with
        | element e =>
          obtain ⟨k', w⟩ := e
          simp only [HashData.hasKey, beq_eq_false_iff_ne]
          rintro rfl
          exact hk w he
        | _ => rfl
      intro c
      simp [Document.overItems.go, Yaml.insertIntoHash, Yaml.editHash, Yaml.fitsConditions, hi, insertClosure, Additive.add]
    | cons s pre ih =>
      intro c
      simp only [List.map_cons, List.cons_append, Document.overItems.go, ih]
      rfl
  simp only [Document.insertIntoHash, Document.overItems, go]
  rfl

/-- **C73** Writing an entry at the end of the file does the same as inserting its value at its key, if the key is new: the text is read as the
document that the insertion gives. -/
theorem C73_append_is_insert (T : CharTables) {leading pre c ds x cl k v z tail} (o : Bool) (h : MappingLines T leading pre c ds [] x)
    (hc : ClosedEntries c ds) (hnew : ∀ w, HashData.element ⟨k, w⟩ ∉ ds) (hz : EntryTexts T (Written T) c .none cl [.element ⟨k, v⟩] z)
    (ht : Tail cl c [] tail) :
    ∀ d, parseYamlFile T x = .ok d → parseYamlFile T (x ++ pad c ++ z ++ tail) = .ok (d.insertIntoHash (.key k [] none) v o).2 := by
  intro d hd
  have h1 := C73_mapping_before T h
  rw [hd] at h1
  injection h1 with h1
  subst h1
  have h2 := C73_append_entries T h hc hz ht
  simp only [List.map_nil, List.append_nil] at h2 ⊢
  rw [insert_new_key o hnew]
  exact h2

/-! ## a text that meets the hypotheses -/

/-- A mapping with a value on lines of its own at the end. -/
def linesText : Str := c!"---
a: 1
b:
- x
# end
"

theorem linesText_lines : MappingLines asciiTables [] [] 0 [kv c!"a" (.unquotedString c!"1"), kv c!"b" (.array [elem (.unquotedString c!"x")])] [c!" end"] linesText := by
  have hk : ∀ {k : Str}, _ → KeyText asciiTables k := fun h => keyText_of (k := _) h
  have nl : Break ['\n'] := .inl rfl
  have hp : ∀ {s : Str} (_ : _) (_ : s.getLast? ≠ some ':'), ScalarText asciiTables (.unquotedString s) s := fun h hl => .plain (blockPlain_simple h) hl
  have hb : Written asciiTables (some 0) .none 0 .key .loose ⟨none, .array [elem (.unquotedString c!"x")]⟩ c!"\n- x" :=
    .array (a := none) (cs := []) (c := 0) (.inr ⟨rfl, rfl⟩) (.nextLine nl .nil .nil)
      (.last (post := []) (.value (Written.scalar (.plain (n := 0)) (hp (by decide) (by decide)))))
  have he : EntryTexts asciiTables (Written asciiTables) 0 .none .loose
      [kv c!"a" (.unquotedString c!"1"), kv c!"b" (.array [elem (.unquotedString c!"x")])] c!"a: 1\nb:\n- x" :=
    .more (n := 0) (post := []) (cs := []) (g := ['\n']) (hk (by decide)) (.value (Written.scalar (.plain (n := 0)) (hp (by decide) (by decide))))
      (.intro (n := 0) nl .nil .nil (by simp) (by simp [Closing.tight]))
      (.last (n := 0) (post := []) (hk (by decide)) (.value hb))
  exact .intro (.intro (n := 0) .nil nl .nil .nil) he (.intro (n := 0) nl .nil (.line (m := 0) (by decide) nl .nil .nil) (by simp) (by simp [Closing.tight]))

example : parseYamlFile asciiTables c!"---
a: 1
b:
- x
# end
c: 2
" = .ok ⟨[], [.yaml (.hash [kv c!"a" (.unquotedString c!"1"), kv c!"b" (.array [elem (.unquotedString c!"x")]), .comment c!" end", kv c!"c" (.unquotedString c!"2")])]⟩ := by
  have nl : Break ['\n'] := .inl rfl
  exact C73_append_at_margin asciiTables linesText_lines (cl := .loose) (z := c!"c: 2") (ds' := [kv c!"c" (.unquotedString c!"2")]) (post' := [])
    (.last (n := 0) (post := []) (keyText_of (by decide)) (.value (Written.scalar (.plain (n := 0)) (.plain (blockPlain_simple (by decide)) (by decide)))))
    (.lines (n := 0) (.intro (n := 0) nl .nil .nil (by simp) (by simp [Closing.tight])) (by simp))

/-- A sequence. -/
theorem sequence_lines : SequenceLines asciiTables [] [] 1 [elem (.unquotedString c!"a")] [] c!"---\n - a\n" := by
  have nl : Break ['\n'] := .inl rfl
  exact .intro (cl := .loose) (x := c!"- a") (.intro (n := 0) .nil nl .nil .nil)
    (.last (post := []) (.value (Written.scalar (.plain (n := 0)) (.plain (blockPlain_simple (by decide)) (by decide)))))
    (.intro (n := 0) nl .nil .nil (by simp) (by simp [Closing.tight]))

theorem sequence_closed : ClosedElements [elem (.unquotedString c!"a")] := by
  intro pre v post hd he
  have hv : v = ⟨none, .unquotedString c!"a"⟩ := by
    have hm : ArrayData.element v ∈ [elem (.unquotedString c!"a")] := by rw [hd]; simp
    simpa [elem] using hm
  subst hv
  cases he with
  | here h => obtain ⟨w, -, post, h⟩ := h; simp at h

example : parseYamlFile asciiTables c!"---\n - a\n - b" = .ok ⟨[], [.yaml (.array [elem (.unquotedString c!"a"), elem (.unquotedString c!"b")])]⟩ :=
  C73_append_elements asciiTables sequence_lines sequence_closed (cl := .loose) (z := c!"- b") (ds' := [elem (.unquotedString c!"b")]) (post' := [])
    (.last (post := []) (.value (Written.scalar (.plain (n := 0)) (.plain (blockPlain_simple (by decide)) (by decide))))) (.nil (by simp))

/-- An entry at the end of a mapping. -/
example : ∀ d, parseYamlFile asciiTables c!"---\na: 1\n" = .ok d →
    parseYamlFile asciiTables c!"---\na: 1\nb: 2" = .ok (d.insertIntoHash (.key c!"b" [] none) ⟨none, .unquotedString c!"2"⟩ false).2 := by
  have nl : Break ['\n'] := .inl rfl
  have h : MappingLines asciiTables [] [] 0 [kv c!"a" (.unquotedString c!"1")] [] c!"---\na: 1\n" :=
    .intro (cl := .loose) (x := c!"a: 1") (.intro (n := 0) .nil nl .nil .nil)
      (.last (n := 0) (post := []) (keyText_of (by decide)) (.value (Written.scalar (.plain (n := 0)) (.plain (blockPlain_simple (by decide)) (by decide)))))
      (.intro (n := 0) nl .nil .nil (by simp) (by simp [Closing.tight]))
  have hz : EntryTexts asciiTables (Written asciiTables) 0 .none .loose [.element ⟨c!"b", ⟨none, .unquotedString c!"2"⟩⟩] c!"b: 2" :=
    .last (n := 0) (post := []) (keyText_of (by decide)) (.value (Written.scalar (.plain (n := 0)) (.plain (blockPlain_simple (by decide)) (by decide))))
  intro d hd
  have h1 := C73_append_is_insert asciiTables false h (closed_margin _) (by simp [kv]) hz (.nil (by simp)) d hd
  have he : c!"---\na: 1\n" ++ pad 0 ++ c!"b: 2" ++ [] = c!"---\na: 1\nb: 2" := rfl
  rw [he] at h1
  exact h1

/-! ## texts that take the new line -/

/-- **C73** A sequence with one element in a sequence takes an element that is written after it. -/
theorem C73_counterexample_element :
    parseYamlFile asciiTables c!"---\n- - a\n" = .ok ⟨[], [.yaml (.array [elem (.array [elem (.unquotedString c!"a")])])]⟩ ∧
    parseYamlFile asciiTables c!"---\n- - a\n- b\n" = .ok ⟨[], [.yaml (.array [elem (.array [elem (.unquotedString c!"a"), elem (.unquotedString c!"b")])])]⟩ :=
  ⟨by kernel_rfl, by kernel_rfl⟩

/-- **C73** A mapping with one entry in a sequence with one element in a sequence takes an indented entry that is written after it. -/
theorem C73_counterexample_entry :
    parseYamlFile asciiTables c!"---\n a:\n - - k: 1\n" =
      .ok ⟨[], [.yaml (.hash [kv c!"a" (.array [elem (.array [elem (.hash [kv c!"k" (.unquotedString c!"1")])])])])]⟩ ∧
    parseYamlFile asciiTables c!"---\n a:\n - - k: 1\n b: 2\n" =
      .ok ⟨[], [.yaml (.hash [kv c!"a" (.array [elem (.array [elem (.hash [kv c!"k" (.unquotedString c!"1"), kv c!"b" (.unquotedString c!"2")])])])])]⟩ :=
  ⟨by kernel_rfl, by kernel_rfl⟩

end YamlSubset
