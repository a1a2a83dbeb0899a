import Verif.Lemmas.LayDocument
import Verif.Model.De

/-! # Documents in any layout (C53)

The relation `Spec.DocumentText T d x` says, without the grammar, when the text `x` shows the document `d`: any indentation, blank lines, trailing
spaces, `\n` or `\r\n`, comments, flow collections over several lines. -/

namespace YamlSubset

open Peg Spec

variable {T : CharTables}

/-- **C53** Parsing any text that shows a document gives exactly this document. -/
theorem C53_every_layout_parses (T : CharTables) (d : Document) (x : Str) (h : DocumentText T d x) : parseYamlFile T x = .ok d := Lay.document_parses h

/-- **C53** A text shows at most one document. -/
theorem C53_one_document (T : CharTables) (d d' : Document) (x : Str) (h : DocumentText T d x) (h' : DocumentText T d' x) : d = d' := by
  have := Lay.document_parses h
  rw [Lay.document_parses h'] at this
  exact (Out.ok.inj this).symm

/-- **C53** Texts that show the same document are the same to the deserializer. -/
theorem C53_layout_does_not_matter (T : CharTables) (Γ : Nat → Ty) (fuel : Nat) (ty : Ty) (d : Document) (x x' : Str)
    (h : DocumentText T d x) (h' : DocumentText T d x') : fromYamlStr T Γ fuel ty x = fromYamlStr T Γ fuel ty x' := by
  simp only [fromYamlStr, Lay.document_parses h, Lay.document_parses h']

/-! ## an example -/

/-- A text with many layouts. -/
def layoutText : Str := c!"
  # top

---  \r

# pre
a   : 1   
b:   # note
     # more
   - k:   [1,
 2 ]  # e
     l: 'q'

   -   - &n x
       - \"y\"
       # c
       - z
c: |+ 
   one

    two
# end"

/-- What it shows. -/
def layoutDocument : Document := ⟨[c!" top"], [.comment c!" pre",
  .yaml (.hash [kv c!"a" (.unquotedString c!"1"),
    kv c!"b" (.array [.comment c!" note", .comment c!" more",
      elem (.hash [kv c!"k" (.inlineArray [.unquotedString c!"1", .unquotedString c!"2"]), .inlineComment c!" e", kv c!"l" (.singleQuotedString [.string c!"q"])]),
      elem (.array [.element ⟨some c!"n", .unquotedString c!"x"⟩, elem (.doubleQuotedString [.string c!"y"]), .comment c!" c", elem (.unquotedString c!"z")])]),
    kv c!"c" (.literalString [c!"one", c!"", c!" two"] .keep)]),
  .comment c!" end"]⟩

theorem layoutText_shows : DocumentText asciiTables layoutDocument layoutText := by
  have hk : ∀ {k : Str}, _ → KeyText asciiTables k := fun h => keyText_of (k := _) h
  have nl : Break ['\n'] := .inl rfl
  have hp : ∀ {s : Str} (_ : _) (_ : s.getLast? ≠ some ':'), ScalarText asciiTables (.unquotedString s) s := fun h hl => .plain (blockPlain_simple h) hl
  have hb1 : Blanks ['\n'] := .line (n := 0) nl .nil
  have gap : ∀ {cl : Closing} {c : Nat}, Gap cl c [] ['\n'] := fun {cl c} =>
    .intro (n := 0) nl .nil .nil (by simp) (fun _ => ⟨rfl, fun m y h => by cases m <;> simp [pad, List.replicate_succ] at h⟩)
  have hlead : LeadingText [c!" top"] (['\n'] ++ c!"  # top\n\n") := .comments hb1 (by simp) (.line (m := 2) (by decide) nl hb1 .nil)
  have hpre : CommentLines [c!" pre"] c!"# pre\n" := .line (m := 0) (by decide) nl .nil .nil
  -- the value of `b`
  have hk1 : EntryTexts asciiTables (Written asciiTables) 5 .dash .loose [kv c!"l" (.singleQuotedString [.string c!"q"])] c!"l: 'q'" :=
    .last (n := 0) (post := []) (hk (by decide)) (.value (Written.scalar (.plain (n := 0)) (.flow (by simp) (.single (.one (by decide))))))
  have hflow : FlowText asciiTables (.inlineArray [.unquotedString c!"1", .unquotedString c!"2"]) c!"[1,\n 2 ]" :=
    .array (.more (w := []) (w' := []) (by simp [Ws]) (.plain (flowPlain_simple (by decide))) (by simp [Ws])
      (.last (w := c!"\n ") (w' := c!" ") (by simp [Ws]) (.plain (flowPlain_simple (by decide))) (by simp [Ws])))
  have he1 : Written asciiTables (some 3) .dash 3 .dash .loose
      ⟨none, .hash [kv c!"k" (.inlineArray [.unquotedString c!"1", .unquotedString c!"2"]), .inlineComment c!" e", kv c!"l" (.singleQuotedString [.string c!"q"])]⟩
      c!" k:   [1,\n 2 ]  # e\n     l: 'q'" :=
    .innerMore (cs := []) (n := 0) (by decide) (.dash (n := 0)) (hk (by decide)) (.comment (n := 1) (.plain (n := 2)) (.flow (by simp) hflow) (by decide)) gap hk1
  have hy : ElementTexts asciiTables (Written asciiTables) 7 (.key 0) .loose [elem (.doubleQuotedString [.string c!"y"]), .comment c!" c", elem (.unquotedString c!"z")]
      c!"- \"y\"\n       # c\n       - z" :=
    .more (cl' := .loose) (post := []) (cs := [c!" c"]) (.value (Written.scalar (.plain (n := 0)) (.flow (by simp) (.double (.one (by decide))))))
      (.intro (n := 0) nl .nil (.line (m := 7) (by decide) nl .nil .nil) (by simp) (by simp [Closing.tight]))
      (.last (post := []) (.value (Written.scalar (.plain (n := 0)) (hp (by decide) (by decide)))))
  have he2 : Written asciiTables (some 3) (.key 0) 3 .dash .loose
      ⟨none, .array [.element ⟨some c!"n", .unquotedString c!"x"⟩, elem (.doubleQuotedString [.string c!"y"]), .comment c!" c", elem (.unquotedString c!"z")]⟩
      c!"   - &n x\n       - \"y\"\n       # c\n       - z" :=
    .innerElements (post := []) (.inl (by decide)) (.dash (n := 2)) (.value (Written.scalar (.named (n := 0) (m := 0) (by decide)) (hp (by decide) (by decide)))) gap hy
  have hlist : Written asciiTables (some 0) (.key 0) 0 .key .loose _ _ :=
    .array (a := none) (cs := [c!" note", c!" more"]) (c := 3) (.inl (by decide))
      (.comment (.plain (n := 2)) (by simp) (.line (m := 0) (by decide) nl .nil (.line (m := 5) (by decide) nl .nil .nil)))
      (.more (post := []) (cs := []) (.value he1) (.intro (n := 0) nl hb1 .nil (by simp) (by simp [Closing.tight])) (.last (post := []) (.value he2)))
  -- the whole
  have hblock : BlockScalarText 0 .scalar [c!"one", c!"", c!" two"] .keep c!"+ \n   one\n\n    two" :=
    .plain (m := 1) (d := 2) nl (by decide) ⟨'o', c!"ne", rfl, by decide⟩ (.line (n := 1) (l := c!" two") nl (by decide) .nil)
  have hroot : RootText asciiTables 0 .scalar _ _ :=
    .hash (.more (post := []) (cs := []) (n := 3) (k := c!"a") (hk (by decide)) (.value (Written.scalar (.plain (n := 0)) (hp (s := c!"1") (by decide) (by decide))))
      (.intro (n := 3) nl .nil .nil (by simp) (by simp [Closing.tight]))
      (.more (post := []) (cs := []) (n := 0) (k := c!"b") (hk (by decide)) (.value hlist) gap
        (.last (post := []) (n := 0) (k := c!"c") (hk (by decide)) (.value (.literal (.plain (n := 0)) hblock)))))
  have := DocumentText.intro (n := 2) (nl := ['\r', '\n']) hlead (.inr rfl) hb1 hpre hroot (.comment (n := 0) gap (by simp) (d := c!" end") (by decide))
  exact this

example : parseYamlFile asciiTables layoutText = .ok layoutDocument := C53_every_layout_parses _ _ _ layoutText_shows

example : parseYamlFile asciiTables layoutText = parseYamlFile asciiTables layoutDocument.format := by kernel_rfl

/-! ## layouts that the library reads in another way -/

/-- **C53** A key without a value takes the next line, even if it is not indented: `a:` and `b: 1` is a mapping in a mapping. -/
theorem C53_counterexample_empty_value :
    parseYamlFile asciiTables c!"---\na:\nb: 1" = .ok ⟨[], [.yaml (.hash [kv c!"a" (.hash [kv c!"b" (.unquotedString c!"1")])])]⟩ := by kernel_rfl

/-- **C53** A plain scalar on the line after its key keeps the indentation in its text. -/
theorem C53_counterexample_next_line :
    parseYamlFile asciiTables c!"---\na:\n  b" = .ok ⟨[], [.yaml (.hash [kv c!"a" (.unquotedString c!"  b")])]⟩ := by kernel_rfl

/-- **C53** A blank line before the header is an error if there is no comment. -/
theorem C53_counterexample_blank_line : parseYamlFile asciiTables c!"\n---\na: 1" = .err := by kernel_rfl

/-- **C53** Blank lines at the start of a block scalar are lost. -/
theorem C53_counterexample_block_scalar :
    parseYamlFile asciiTables c!"---\na: |\n\n  b" = .ok ⟨[], [.yaml (.hash [kv c!"a" (.literalString [c!"b"] .clip)])]⟩ := by kernel_rfl

/-- **C53** A sequence with one element in a sequence takes the next element, whatever its indentation. -/
theorem C53_counterexample_inner_element :
    parseYamlFile asciiTables c!"---\n- - 1\n- 2" = .ok ⟨[], [.yaml (.array [elem (.array [elem (.unquotedString c!"1"), elem (.unquotedString c!"2")])])]⟩ := by kernel_rfl

end YamlSubset
