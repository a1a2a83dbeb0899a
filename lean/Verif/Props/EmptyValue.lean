import Verif.Lemmas.LayLax
import Verif.Props.MoveLines
import Verif.Lemmas.KernelRfl

/-! # C80: a key without a value takes the entries that follow

In YAML, a key without a value has the value null. This library has no empty values, and it does not compare the indentation of a mapping with that of the mapping
around it. So, if the value of a key is left out, the file is read without an error, but as another document: what follows becomes the value of the key. At
the left margin it is the next entry; in an indented mapping, or with a comment or a space after the colon, it is everything that follows in this mapping. -/

namespace YamlSubset

open Spec

variable {T : CharTables}

/-- **C80** Texts in which keys may have no value, in any layout, are parsed, and the result is the document in which these keys have taken entries that follow. -/
theorem C80_texts_parse (T : CharTables) (d : Document) (x : Str) (h : LaxText T d x) : parseYamlFile T x = .ok d := Lay.lax_document h

/-- **C80** These texts include all layouts (Spec/Written.lean) of documents with a mapping as root. -/
theorem C80_include_layouts (T : CharTables) {d x ds} (h : DocumentText T d x) (hr : DocumentData.yaml (.hash ds) ∈ d.items) : LaxText T d x := by
  cases h with
  | @intro leading pre post root c cl lead n nl b preText rootText tail hl hn hb hp hroot ht =>
    obtain rfl : Yaml.hash ds = root := by simpa using hr
    cases hroot with
    | hash h => exact .intro hl hn hb hp (Lay.entries_lax h) ht

/-- **C80** In the text of a document, in any layout, some entries of the root mapping are replaced by a key without a value. If the key is at the left margin
and nothing is after its colon, the entry that follows, with the comment on its line, becomes its value, and the others stay. If the mapping is indented, or there
is a space or a comment after the colon, all entries that follow become its value. -/
theorem C80_value_left_out (T : CharTables) {d x pre mid e rest} {ps : List Str} (h : DocumentText T d x)
    (hr : DocumentData.yaml (.hash (pre ++ mid ++ (.element e :: ps.map .inlineComment ++ rest))) ∈ d.items) (hm : mid = [] ∨ StartsWithEntry mid)
    (hrest : ∀ c r, rest ≠ .inlineComment c :: r) :
    ∃ A z B c, x = A ++ z ++ B ∧ EntryBlocks T c mid z ∧ (∃ B', B = pad c ++ e.key ++ B') ∧
      (c = 0 → ∀ key n nl b, KeyText T key → Break nl → Blanks b → parseYamlFile T (A ++ (key ++ pad n ++ ':' :: (nl ++ b)) ++ B) =
        .ok (onTrees (fun _ => .hash (pre ++ .element ⟨key, ⟨none, .hash (.element e :: ps.map .inlineComment)⟩⟩ :: rest)) d)) ∧
      (∀ key n a cs lead, KeyText T key → BlockLead T true .key a cs lead → (0 < c ∨ cs ≠ [] ∨ lead.head? = some ' ') →
        parseYamlFile T (A ++ (pad c ++ key ++ pad n ++ ':' :: lead) ++ B) =
        .ok (onTrees (fun _ => .hash (pre ++ [.element ⟨key, ⟨a, .hash (cs.map .comment ++ (.element e :: ps.map .inlineComment ++ rest))⟩⟩])) d)) := by
  have hm : StartsWithEntry (mid ++ (.element e :: ps.map .inlineComment ++ rest)) := by
    rcases hm with rfl | ⟨e', r, rfl⟩
    · exact ⟨_, _, rfl⟩
    · exact ⟨_, _, rfl⟩
  cases h with
  | @intro leading pre₀ post₀ root c cl lead n nl b preText rootText tail hl hn hb hp hroot ht =>
    obtain rfl : root = _ := (by simpa using hr : _ = root).symm
    cases hroot with
    | @hash _ _ _ x₀ h =>
      obtain ⟨A, y, h1, hA, hy⟩ := Lay.entries_blocks h (mid := pre) (post := mid ++ (.element e :: ps.map .inlineComment ++ rest)) (by simp) hm
      obtain ⟨z, B, h2, hz, hB⟩ := Lay.entries_blocks hy rfl ⟨_, _, rfl⟩
      obtain ⟨e', rest', he', B', hB'⟩ := Lay.entries_first hB
      simp only [List.cons_append, List.cons.injEq, HashData.element.injEq] at he'
      obtain ⟨rfl, -⟩ := he'
      refine ⟨lead ++ ['-', '-', '-'] ++ pad n ++ nl ++ b ++ preText ++ A, z, pad c ++ B ++ tail, c, ?_, hz, ⟨B' ++ tail, by simp [hB']⟩, ?_, ?_⟩
      · rw [h1, h2]; simp
      · rintro rfl key m nl' b' hk hn' hb'
        obtain ⟨x', h3, h4⟩ := Lay.blocks_lax hA (Lay.takes_first (n := m) hB rfl hrest hk hn' hb')
        have := C80_texts_parse T _ _ (.intro (n := n) hl hn hb hp h4 ht)
        rw [h3] at this
        rw [Lay.onTrees_root]
        simpa [pad] using this
      · intro key m a cs lead' hk hl' hc
        obtain ⟨x', h3, h4⟩ := Lay.blocks_lax hA (Lay.takes_entries (n := m) hB hk hc hl')
        have := C80_texts_parse T _ _ (.intro (n := n) hl hn hb hp h4 ht)
        rw [h3] at this
        rw [Lay.onTrees_root]
        simpa [pad] using this

/-! ## concrete texts -/

/-- The next entry is taken. -/
example : parseYamlFile asciiTables c!"---\na: 1\nb:\nc: d # x\ne: f\n" =
    .ok (docOf (.hash [kv c!"a" (plain c!"1"), kv c!"b" (.hash [kv c!"c" (plain c!"d"), .inlineComment c!" x"]), kv c!"e" (plain c!"f")])) := by kernel_rfl

/-- With a space after the colon, everything is taken. -/
example : parseYamlFile asciiTables c!"---\na: 1\nb: \nc: d\ne: f\n" =
    .ok (docOf (.hash [kv c!"a" (plain c!"1"), kv c!"b" (.hash [kv c!"c" (plain c!"d"), kv c!"e" (plain c!"f")])])) := by kernel_rfl

/-- In an indented mapping, everything is taken; what is after the mapping is not. -/
example : parseYamlFile asciiTables c!"---\nx:\n  b:\n  c: d\n  e: f\ny: 1\n" =
    .ok (docOf (.hash [kv c!"x" (.hash [kv c!"b" (.hash [kv c!"c" (plain c!"d"), kv c!"e" (plain c!"f")])]), kv c!"y" (plain c!"1")])) := by kernel_rfl

/-- An entry at the left margin can even be the value of a key in an indented mapping, which goes on after it. -/
example : parseYamlFile asciiTables c!"---\nx:\n  b:\nc: d\n  e: f\ny: 1\n" =
    .ok (docOf (.hash [kv c!"x" (.hash [kv c!"b" (.hash [kv c!"c" (plain c!"d")]), kv c!"e" (plain c!"f")]), kv c!"y" (plain c!"1")])) := by
  have hk : ∀ {k : Str}, _ → KeyText asciiTables k := fun h => keyText_of (k := _) h
  have hp : ∀ {s : Str}, _ → BlockPlain asciiTables s := fun h => blockPlain_simple (s := _) h
  have gap : ∀ c, Gap .loose c [] c!"\n" := fun c => Gap.intro (n := 0) (.inl rfl) .nil .nil (by simp) (by simp [Closing.tight])
  have lead : Lead asciiTables none [' '] := .plain (n := 0)
  have inner : EntryTexts asciiTables (Lax asciiTables) 2 (.key 0) .loose [kv c!"b" (.hash [kv c!"c" (plain c!"d")]), kv c!"e" (plain c!"f")] c!"b:\nc: d\n  e: f" :=
    .more (n := 0) (post := []) (cs := []) (x := c!"\nc: d") (hk (by decide)) (.value (.takesOutdented (n := 0) (b := []) (by simp) (.inl rfl) .nil (hk (by decide)) lead (.plain (hp (by decide)) (by decide))))
      (gap 2) (.last (n := 0) (post := []) (hk (by decide)) (.value (.scalar lead (.plain (hp (by decide)) (by decide)))))
  have root : EntryTexts asciiTables (Lax asciiTables) 0 .none .loose
      [kv c!"x" (.hash [kv c!"b" (.hash [kv c!"c" (plain c!"d")]), kv c!"e" (plain c!"f")]), kv c!"y" (plain c!"1")] c!"x:\n  b:\nc: d\n  e: f\ny: 1" :=
    .more (n := 0) (post := []) (cs := []) (x := c!"\n  b:\nc: d\n  e: f") (hk (by decide)) (.value (.hash (c := 2) (cs := []) (by decide) (.nextLine (b := []) (.inl rfl) .nil .nil) inner))
      (gap 0) (.last (n := 0) (post := []) (hk (by decide)) (.value (.scalar lead (.plain (hp (by decide)) (by decide)))))
  exact C80_texts_parse _ _ _ (.intro (leading := []) (pre := []) (post := []) (n := 0) (b := []) (c := 0) .nil (.inl rfl) .nil .nil root (.lines (n := 0) (gap 0) (by simp)))

/-- In a text with another layout, the list `b` is replaced by a key without a value, which takes the block scalar that follows. -/
example : ∃ A z B c, layoutText = A ++ z ++ B ∧ EntryBlocks asciiTables c [kv c!"b" (.array layoutList)] z ∧
    (c = 0 → parseYamlFile asciiTables (A ++ c!"new:\n" ++ B) = .ok (onTrees (fun _ => .hash [kv c!"a" (.unquotedString c!"1"),
      kv c!"new" (.hash [kv c!"c" (.literalString [c!"one", c!"", c!" two"] .keep)])]) layoutDocument)) := by
  obtain ⟨A, z, B, c, hx, hz, -, h, -⟩ := C80_value_left_out asciiTables layoutText_shows (pre := [kv c!"a" (.unquotedString c!"1")]) (mid := [kv c!"b" (.array layoutList)])
    (e := ⟨c!"c", ⟨none, .literalString [c!"one", c!"", c!" two"] .keep⟩⟩) (ps := []) (rest := []) layoutRoot_mem (.inr ⟨_, _, rfl⟩) (by simp)
  exact ⟨A, z, B, c, hx, hz, fun hc => h hc c!"new" 0 ['\n'] [] (keyText_of (by decide)) (.inl rfl) .nil⟩

/-- If nothing follows, the text is rejected. -/
example : parseYamlFile asciiTables c!"---\na: 1\nb:\n" = .err := by kernel_rfl

end YamlSubset
