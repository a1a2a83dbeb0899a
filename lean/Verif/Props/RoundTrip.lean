import Verif.Lemmas.ReadDocument
import Verif.Props.Termination
import Verif.Lemmas.KernelRfl

/-! # Formatting and parsing (C40, C41, C43) -/

namespace YamlSubset

open Peg Spec

variable {T : CharTables}

theorem Reads.eoi (k) : Reads T (.eoi .EOI) [] k [(.EOI, .unit)] [] k :=
  ⟨[.node .EOI [] []], yes_eoi.2 ⟨rfl, rfl, rfl, rfl⟩, rfl⟩

theorem Reads.parse {s r : Str} {k : List Str} {d : Document} (h : Reads T (.rule .yaml) s [] [(.yaml, .doc d)] r k) : parseYamlFile T s = .ok d := by
  obtain ⟨ts, hy, hs⟩ := h
  unfold parseYamlFile
  rw [hy.eval_eq (yaml_eval_ne_oof T s)]
  match ts with
  | [] => simp [semKids] at hs
  | [.node q t cs] =>
    simp only [semKids, oks_cons, oks_nil, List.cons.injEq, Prod.mk.injEq, and_true] at hs
    simp [finishYaml, hs.2, Val.asDoc]
  | .node q t cs :: .node q' t' cs' :: ts => simp [semKids] at hs

/-- **C41** Formatting a document that meets the specification `ReadableDocument` and parsing the text gives exactly
that document. -/
theorem C41_formatted_documents_parse (T : CharTables) (d : Document) (h : ReadableDocument T d) : parseYamlFile T d.format = .ok d := by
  obtain ⟨lead, items⟩ := d
  obtain ⟨hlead, pre, post, root, hitems, hcs, hroot⟩ := h
  dsimp only at hitems hlead
  subst hitems
  obtain ⟨q, x, hq, ⟨t, rfl⟩, hbare, hrd⟩ := hroot.reads (post := post) fun c hc => hcs c (by simp [hc])
  have hpre : ∀ c ∈ pre, LineText c := fun c hc => hcs c (by simp [hc])
  have hpost : ∀ c ∈ post, LineText c := fun c hc => hcs c (by simp [hc])
  have hfm : ∀ cs : List Str, (cs.map DocumentData.comment).flatMap DocumentData.format = lines 0 cs := by
    intro cs
    induction cs with
    | nil => rfl
    | cons c cs ih => simp [lines, DocumentData.format, indent] at ih ⊢; exact ih
  have htext : Document.format ⟨lead, pre.map .comment ++ [.yaml root] ++ post.map .comment⟩ =
      linesNl 0 lead ++ '-' :: '-' :: '-' :: '\n' :: (linesNl 0 pre ++ (indent 0 ++ x :: t)) := by
    have h1 : lines 0 pre ++ (root.format 0 none ++ lines 0 post) = '\n' :: (linesNl 0 pre ++ x :: t) := by rw [hq, lines_nl]
    simp only [Document.format, List.flatMap_append, hfm, List.flatMap_cons, List.flatMap_nil, DocumentData.format, List.append_nil, List.append_assoc]
    rw [h1]
    simp [linesNl, indent]
  rw [htext]
  have hd0 : Reads T (.str ['-', '-', '-']) ('-' :: '-' :: '-' :: '\n' :: (linesNl 0 pre ++ (indent 0 ++ x :: t))) [] []
      ('\n' :: (linesNl 0 pre ++ (indent 0 ++ x :: t))) [] := .str ['-', '-', '-'] _ []
  obtain ⟨ts1, hp1, hp2⟩ := reads_post (T := T) hpost []
  obtain ⟨sb, kb, ta, tb, hb1, hb2, rfl⟩ := yes_seq.1 hp1
  have hbody : Reads T ((Rule.yaml).body T) (linesNl 0 lead ++ '-' :: '-' :: '-' :: '\n' :: (linesNl 0 pre ++ (indent 0 ++ x :: t))) []
      ([(.leading_comments, .strs lead)] ++ ([(.commentnls, .strs pre)] ++ ([(.document, .yaml root)] ++
        (post.map (fun c => (Rule.comment, Val.str c)) ++ [(.EOI, .unit)])))) [] [] := by
    refine .seq (l₁ := []) (.soi _ _) (.seq (reads_leading hlead _) (.seq (l₁ := []) hd0 (.seq (l₁ := [])
      (FullLine.blanknl (FullLine.linesNl ⟨0, _, rfl, hbare.black⟩) _) (.seq (reads_commentnls hpre hbare _) (.seq hrd ?_)))))
    obtain ⟨tc, hc1, hc2⟩ := Reads.seq (l₁ := []) (reads_spaces (T := T) (n := 0) bare_nil.spaces []) (Reads.eoi [])
    refine ⟨_, yes_seq.2 ⟨_, _, _, _, hb1, yes_seq.2 ⟨_, _, _, _, hb2, hc1, rfl⟩, rfl⟩, ?_⟩
    rw [← List.append_assoc, semKids_append, hp2, hc2, oks_append, oks_append]
    rfl
  refine (Reads.rule (q := .yaml) (v := .doc ⟨lead, pre.map .comment ++ [.yaml root] ++ post.map .comment⟩) rfl hbody fun u => ?_).parse
  simp only [List.cons_append, List.nil_append, oks_cons, act, Consume.yaml, Out.bind_ok, Val.asStrs, Val.asYaml]
  rw [manyThen_oks .comment Val.asStr Val.str (fun _ => rfl) post .EOI .ok .unit .unit rfl]
  simp

/-! ## an example -/

/-- A sufficient condition for plain scalars. -/
theorem blockPlain_simple {s : Str} (h : s ≠ [] ∧ (∀ c ∈ s, c ≠ '\n' ∧ c ≠ '\r' ∧ c ≠ '#' ∧ c ≠ ':') ∧ s.getLast? ≠ some ' ' ∧
    ∀ c, s.head? = some c → c ∉ ['[', ']', '{', '}', '"', '\'', '>', '|', '&', '*', '-'] ∧ isSpaceSeparator c = false) : BlockPlain T s := by
  obtain ⟨h1, h2, h3, h4⟩ := h
  have hcolon : ∀ a b, s ≠ a ++ ':' :: b := fun a b he => (h2 ':' (by simp [he])).2.2.2 rfl
  refine ⟨h1, ⟨fun hm => (h2 _ hm).1 rfl, fun hm => (h2 _ hm).2.1 rfl⟩, fun hm => (h2 _ hm).2.2.1 rfl, fun a b => hcolon a _, h3, fun c hc => ?_,
    fun c d t he hcd => ?_, fun t he => ?_, fun c k t he => absurd he (hcolon _ _)⟩
  · have := h4 c hc
    exact ⟨fun hm => this.1 (by simp at hm ⊢; grind), this.2⟩
  · have := (h4 c (by simp [he])).1
    rcases hcd with rfl | rfl <;> simp at this
  · have := (h4 '-' (by simp [he])).1
    simp at this

theorem flowPlain_simple {s : Str} (h : s ≠ [] ∧ (∀ c ∈ s, c ∉ ['\n', '\r', '#', ':', ',', '[', ']', '{', '}', '"', '>', '|', '*']) ∧
    s.getLast? ≠ some ' ' ∧ s.head? ≠ some ' ' ∧ s.head? ≠ some '\'') : FlowPlain T s := by
  obtain ⟨h1, h2, h3, h4, h5⟩ := h
  refine ⟨h1, ⟨fun hm => h2 _ hm (by simp), fun hm => h2 _ hm (by simp)⟩, fun c hc hm => h2 c hc (by simp at hm ⊢; grind), fun c hc => ?_, fun a b he => ?_,
    ⟨h3, fun hl => ?_⟩, ⟨h4, h5⟩, fun d t he => ?_⟩
  · have := h2 c (List.mem_of_mem_tail hc)
    simp at this
    exact ⟨this.2.2.2.2.2.2.2.2.2.2.1, this.2.2.2.2.2.2.2.2.2.2.2.1⟩
  · exact absurd (by simp) (h2 ':' (by simp [he]))
  · exact absurd (by simp) (h2 ':' (List.mem_of_getLast? hl))
  · exact absurd (by simp) (h2 '*' (by simp [he]))

/-- A key and a value without an anchor. -/
def kv (k : Str) (v : Yaml) : HashData := .element ⟨k, ⟨none, v⟩⟩

/-- A sequence element without an anchor. -/
def elem (v : Yaml) : ArrayData := .element ⟨none, v⟩

/-- A document with most of what there is: comments everywhere, anchors, references, block and flow collections, quoted and
block scalars, collections on the line of a dash. -/
def exampleDocument : Document where
  leadingComments := [c!" top"]
  items := [.comment c!" before", .yaml (.hash [
    .element ⟨c!"base", ⟨some c!"b", .hash [kv c!"x" (.unquotedString c!"1"), .comment c!" c", kv c!"y" (.unquotedString c!"a b")]⟩⟩,
    kv c!"list" (.array [
      elem (.hash [kv c!"k" (.singleQuotedString [.string c!"it", .escapedChar .singleQuote, .string c!"s"]), .inlineComment c!" i",
        kv c!"t" (.literalString [c!"one", c!"", c!" two"] .keep)]),
      elem (.anchor c!"b"),
      elem (.array [elem (.unquotedString c!"1"), elem (.unquotedString c!"2")]),
      .comment c!" last", elem (.inlineArray [.inlineHash [(c!"q", .doubleQuotedString [.escapedChar .newline])], .unquotedString c!"z"])]),
    kv c!"text" (.foldedString [c!" a", c!"b"] .strip)]), .comment c!" after"]

example : String.ofList exampleDocument.format = "# top
---
# before
base: &b
  x: 1
  # c
  y: a b
list:
  - k: 'it''s' # i
    t: |+
      one
      
       two
  - *b
  - - 1
    - 2
  # last
  - [ { q: \"\\n\" }, z ]
text: >-2
   a
  b
# after" := by decide +kernel

instance (T : CharTables) (c : Char) : Decidable (NameChar T c) := inferInstanceAs (Decidable (_ ∨ _))

instance (s : Str) : Decidable (LineText s) := inferInstanceAs (Decidable (_ ∧ _))

instance (T : CharTables) (s : Str) : Decidable (NameText T s) := inferInstanceAs (Decidable (_ ∧ _))

instance (p : SQPart) : Decidable (SQPartText p) := by cases p <;> simp only [SQPartText] <;> infer_instance

instance (p : DQPart) : Decidable (DQPartText p) := by cases p <;> simp only [DQPartText] <;> infer_instance

theorem keyText_of {k : Str} (h : k ≠ [] ∧ (∀ c ∈ k.head?, NameChar T c) ∧ (∀ c ∈ k, NameChar T c ∨ c = '-' ∨ c = ' ') ∧
    ∀ c ∈ k.getLast?, isWhitespace c = false) : KeyText T k := ⟨h.1, h.2.1, h.2.2.1, h.2.2.2⟩

theorem no_name {P : Str → Prop} : ∀ n, (none : Option Str) = some n → P n := by simp

theorem exampleDocument_readable : ReadableDocument asciiTables exampleDocument := by
  have hk : ∀ {k : Str}, _ → KeyText asciiTables k := fun h => keyText_of (k := _) h
  refine ⟨by decide, [c!" before"], [c!" after"], _, rfl, by decide, ?_⟩
  refine .hash (.entry (hk (by decide)) (by decide) ?_ (.entry (hk (by decide)) no_name ?_ (.last (hk (by decide)) no_name ?_)))
  · refine .altMore (.inr rfl) (hk (by decide)) no_name (.oneLine (.plain (blockPlain_simple (by decide))))
      (.comment (by decide) (.last (hk (by decide)) no_name (.oneLine (.plain (blockPlain_simple (by decide))))))
  · refine .array (.element no_name ?_ (.element no_name (.oneLine (.reference (by decide))) (.element no_name ?_ (.comment (by decide) (.last no_name ?_)))))
    · refine .altMoreComment (.inl rfl) (hk (by decide)) no_name (.single ?_) trivial (by decide) (.last (hk (by decide)) no_name (.literal rfl ?_))
      · exact .cons (by decide) (by simp) (by simp) (.cons (by decide) (by simp) (by simp) (.one (by decide)))
      · exact ⟨by decide, _, _, rfl, .inl ⟨_, _, rfl, by decide⟩⟩
    · exact .seqMore (.inl rfl) no_name (.oneLine (.plain (blockPlain_simple (by decide)))) (.last no_name (.oneLine (.plain (blockPlain_simple (by decide)))))
    · refine .oneLine (.array (.array fun v hv => ?_))
      simp only [List.mem_cons, List.not_mem_nil, or_false] at hv
      rcases hv with rfl | rfl
      · refine .hash (fun k v h => ?_) (fun k v h => ?_) <;> simp only [List.mem_cons, List.not_mem_nil, or_false, Prod.mk.injEq] at h <;> obtain ⟨rfl, rfl⟩ := h
        · exact hk (by decide)
        · exact .double (.one (by decide))
      · exact .plain (flowPlain_simple (by decide))
  · refine .folded rfl ⟨by decide, _, _, rfl, .inr ⟨rfl, rfl, 'a', by decide, by decide⟩⟩

example : parseYamlFile asciiTables exampleDocument.format = .ok exampleDocument :=
  C41_formatted_documents_parse _ _ exampleDocument_readable

/-! ## documents that do not survive -/

/-- The document comes back. -/
def Survives (T : CharTables) (d : Document) : Prop := parseYamlFile T d.format = .ok d

theorem lost_of_other {d d' : Document} (h : parseYamlFile T d.format = .ok d') (hne : d' ≠ d) : ¬ Survives T d := by
  intro hs; rw [Survives, h, Out.ok.injEq] at hs; exact hne hs

theorem lost_of_err {d : Document} (h : parseYamlFile T d.format = .err) : ¬ Survives T d := by
  intro hs; rw [Survives, h] at hs; exact nomatch hs

/-- A document without comments of its own. -/
def docOf (y : Yaml) : Document := ⟨[], [.yaml y]⟩

/-- Plain scalars. -/
abbrev plain (s : Str) : Yaml := .unquotedString s

/-- **C41** A sequence with one element inside a sequence takes the next element:
`[[1], [2]]` becomes `[[1, [2]]]`. -/
theorem C41_counterexample_nested_sequences :
    ¬ Survives asciiTables (docOf (.array [elem (.array [elem (plain c!"1")]), elem (.array [elem (plain c!"2")])])) :=
  lost_of_other (d' := docOf (.array [elem (.array [elem (plain c!"1"), elem (.array [elem (plain c!"2")])])])) (by kernel_rfl)
    (by simp [docOf, elem])

/-- **C41** A mapping with an anchor and one entry, at the start of a mapping inside a sequence, takes the next entry. -/
theorem C41_counterexample_anchored_mapping :
    ¬ Survives asciiTables (docOf (.array [elem (.hash [.element ⟨c!"k", ⟨some c!"x", .hash [kv c!"a" (plain c!"1")]⟩⟩, kv c!"l" (plain c!"v")])])) :=
  lost_of_other (d' := docOf (.array [elem (.hash [.element ⟨c!"k", ⟨some c!"x", .hash [kv c!"a" (plain c!"1"), kv c!"l" (plain c!"v")]⟩⟩])]))
    (by kernel_rfl) (by simp [docOf, elem, kv])

/-- **C41** The same for a mapping in a sequence in a sequence, which takes the next entry of the mapping outside. -/
theorem C41_counterexample_deep_mapping :
    ¬ Survives asciiTables (docOf (.hash [kv c!"y" (.hash [kv c!"z" (.array [elem (.array [elem (.hash [kv c!"a" (plain c!"1")])])]), kv c!"l" (plain c!"v")])])) :=
  lost_of_other (d' := docOf (.hash [kv c!"y" (.hash [kv c!"z" (.array [elem (.array [elem (.hash [kv c!"a" (plain c!"1"), kv c!"l" (plain c!"v")])])])])]))
    (by kernel_rfl) (by simp [docOf, elem, kv])

/-- **C41** A block scalar at the start of a mapping inside a sequence takes the next entry, without its first characters. -/
theorem C41_counterexample_block_scalar :
    ¬ Survives asciiTables (docOf (.array [elem (.hash [kv c!"k" (.literalString [c!"a"] .clip), kv c!"l2" (plain c!"v")])])) :=
  lost_of_other (d' := docOf (.array [elem (.hash [kv c!"k" (.literalString [c!"a", c!": v"] .clip)])])) (by kernel_rfl) (by simp [docOf, elem, kv])

/-- **C41** A block scalar whose first line starts with a space, at the start of a mapping inside a sequence, gets more spaces. -/
theorem C41_counterexample_indicator :
    ¬ Survives asciiTables (docOf (.array [elem (.hash [kv c!"k" (.literalString [c!" a"] .clip)])])) :=
  lost_of_other (d' := docOf (.array [elem (.hash [kv c!"k" (.literalString [c!"   a"] .clip)])])) (by kernel_rfl) (by simp [docOf, elem, kv])

/-- **C41** A block scalar loses an empty first line. -/
theorem C41_counterexample_empty_line :
    ¬ Survives asciiTables (docOf (.hash [kv c!"k" (.literalString [c!"", c!"a"] .clip)])) :=
  lost_of_other (d' := docOf (.hash [kv c!"k" (.literalString [c!"a"] .clip)])) (by kernel_rfl) (by simp [docOf, kv])

/-- **C41** An empty block mapping comes back as a flow mapping. -/
theorem C41_counterexample_empty :
    ¬ Survives asciiTables (docOf (.hash [kv c!"k" (.hash [])])) :=
  lost_of_other (d' := docOf (.hash [kv c!"k" (.inlineHash [])])) (by kernel_rfl) (by simp [docOf, kv])

/-- **C41** A comment at the start of the root becomes a comment of the document. -/
theorem C41_counterexample_first_comment :
    ¬ Survives asciiTables (docOf (.hash [.comment c!"c", kv c!"k" (plain c!"v")])) :=
  lost_of_other (d' := ⟨[], [.comment c!"c", .yaml (.hash [kv c!"k" (plain c!"v")])]⟩) (by kernel_rfl) (by simp [docOf])

/-- **C41** A comment at the end of a nested mapping becomes a comment of the outer one. -/
theorem C41_counterexample_last_comment :
    ¬ Survives asciiTables (docOf (.hash [kv c!"k" (.hash [kv c!"a" (plain c!"1"), .comment c!"c"]), kv c!"l" (plain c!"v")])) :=
  lost_of_other (d' := docOf (.hash [kv c!"k" (.hash [kv c!"a" (plain c!"1")]), .comment c!"c", kv c!"l" (plain c!"v")])) (by kernel_rfl) (by simp [docOf, kv])

/-- **C41** A comment at the end of the line of a block collection is the comment of its last value. -/
theorem C41_counterexample_inline_comment :
    ¬ Survives asciiTables (docOf (.hash [kv c!"k" (.hash [kv c!"a" (plain c!"1")]), .inlineComment c!"c"])) :=
  lost_of_other (d' := docOf (.hash [kv c!"k" (.hash [kv c!"a" (plain c!"1"), .inlineComment c!"c"])])) (by kernel_rfl) (by simp [docOf, kv])

/-- **C41** A mapping inside a sequence cannot start with a comment, nor can a sequence with an anchor, and there can be
no comment between the first two elements of a sequence inside a sequence: the text does not parse. -/
theorem C41_counterexample_comments :
    ¬ Survives asciiTables (docOf (.array [elem (.hash [.comment c!"c", kv c!"a" (plain c!"1")])])) ∧
    ¬ Survives asciiTables (docOf (.hash [.element ⟨c!"k", ⟨some c!"x", .array [.comment c!"c", elem (plain c!"1")]⟩⟩])) ∧
    ¬ Survives asciiTables (docOf (.array [elem (.array [elem (plain c!"1"), .comment c!"c", elem (plain c!"2")])])) :=
  ⟨lost_of_err (by kernel_rfl), lost_of_err (by kernel_rfl), lost_of_err (by kernel_rfl)⟩

/-- **C41** Plain scalars that end in a colon: before a comment and in flow collections the text does not parse, before
another entry they become keys. -/
theorem C41_counterexample_colon :
    ¬ Survives asciiTables (docOf (.hash [kv c!"k" (plain c!"x:"), .inlineComment c!"c"])) ∧
    ¬ Survives asciiTables (docOf (.hash [kv c!"k" (.inlineArray [plain c!"x:"])])) ∧
    ¬ Survives asciiTables (docOf (.hash [kv c!"k" (plain c!"x:"), kv c!"l" (plain c!"v")])) :=
  ⟨lost_of_err (by kernel_rfl), lost_of_err (by kernel_rfl),
    lost_of_other (d' := docOf (.hash [kv c!"k" (.hash [kv c!"x" (.hash [kv c!"l" (plain c!"v")])])])) (by kernel_rfl) (by simp [docOf, kv])⟩

/-- **C41** A root that is not a block collection, and an empty plain scalar, do not parse; adjacent texts of a quoted scalar
are joined; a block collection inside a flow collection becomes a plain scalar. -/
theorem C41_counterexample_shapes :
    ¬ Survives asciiTables (docOf (plain c!"a")) ∧ ¬ Survives asciiTables (docOf (.inlineArray [plain c!"a"])) ∧
    ¬ Survives asciiTables (docOf (.hash [kv c!"k" (plain c!"")])) ∧
    ¬ Survives asciiTables (docOf (.hash [kv c!"k" (.doubleQuotedString [.string c!"a", .string c!"b"])])) ∧
    ¬ Survives asciiTables (docOf (.hash [kv c!"k" (.inlineArray [.array [elem (plain c!"a")]])])) :=
  ⟨lost_of_err (by kernel_rfl), lost_of_err (by kernel_rfl), lost_of_err (by kernel_rfl),
    lost_of_other (d' := docOf (.hash [kv c!"k" (.doubleQuotedString [.string c!"ab"])])) (by kernel_rfl) (by simp [docOf, kv]),
    lost_of_other (d' := docOf (.hash [kv c!"k" (.inlineArray [plain c!"- a"])])) (by kernel_rfl) (by simp [docOf, kv])⟩

/-! ## C40 -/

/-- **C40** A flow collection, a quoted or plain scalar or a reference after a key comes back. -/
theorem C40_flow_values_parse (T : CharTables) (k : Str) (y : Yaml) (hk : KeyText T k) (h : OneLine T y) (spaces : Nat) (parent : Option Parent) :
    parseYamlFile T (c!"---\n" ++ k ++ c!":" ++ y.format spaces parent) = .ok (docOf (.hash [kv k y])) := by
  have hf : y.format spaces parent = y.format 2 (some .hash) := by cases h <;> simp [Yaml.format]
  rw [hf, ← C41_formatted_documents_parse T (docOf (.hash [kv k y]))
    ⟨by simp [docOf], [], [], _, rfl, by simp, .hash (.last hk no_name (.oneLine h))⟩]
  simp [docOf, kv, Document.format, DocumentData.format, Yaml.format, formatHash, indent]

/-- **C40** The same for every value inside a flow collection. -/
theorem C40_nested_flow_values_parse (T : CharTables) (y : Yaml) (h : Flow T y) :
    parseYamlFile T (c!"---\nv: [" ++ y.format 0 none ++ c!" ]") = .ok (docOf (.hash [kv c!"v" (.inlineArray [y])])) := by
  have hk : KeyText T c!"v" := by
    have hv : NameChar T 'v' := (nameChar_ascii (by decide)).2 (by decide)
    exact ⟨by simp, by simp [hv], by simp [hv], by simp; decide⟩
  rw [← C40_flow_values_parse T c!"v" (.inlineArray [y]) hk (.array (.array (by simpa using h))) 0 none]
  simp [Yaml.format, formatInlineElements]

/-! ## C43 -/

/-- **C43** Formatting a parsed document is lossless if the document meets the specification of C41, and then the
formatted text is stable. `C43_plain_documents` gives conditions that are easier to check. -/
theorem C43_readable_documents (T : CharTables) (s : Str) (d : Document) (_ : parseYamlFile T s = .ok d) (h : ReadableDocument T d) :
    parseYamlFile T d.format = .ok d ∧ ∀ d', parseYamlFile T d.format = .ok d' → d'.format = d.format := by
  have := C41_formatted_documents_parse T d h
  exact ⟨this, fun d' hd => by rw [this, Out.ok.injEq] at hd; rw [hd]⟩

/-- **C43** is false: a scalar on the line after its key keeps its indentation as a part of the text, and loses it the
second time. -/
theorem C43_counterexample_next_line :
    parseYamlFile asciiTables c!"---\na:\n  b" = .ok (docOf (.hash [kv c!"a" (plain c!"  b")])) ∧
    ¬ Survives asciiTables (docOf (.hash [kv c!"a" (plain c!"  b")])) :=
  ⟨by kernel_rfl, lost_of_other (d' := docOf (.hash [kv c!"a" (plain c!"b")])) (by kernel_rfl) (by simp [docOf, kv])⟩

/-- **C43** A flow sequence at the root is parsed, but formatted on the line of the dashes, where it does not parse. -/
theorem C43_counterexample_flow_root :
    parseYamlFile asciiTables c!"---\n[1]" = .ok (docOf (.inlineArray [plain c!"1"])) ∧
    ¬ Survives asciiTables (docOf (.inlineArray [plain c!"1"])) :=
  ⟨by kernel_rfl, lost_of_err (by kernel_rfl)⟩

/-- **C43** A comment after a dash is parsed as the first line of a nested sequence, but not in the place where it is
formatted. -/
theorem C43_counterexample_comment_after_dash :
    parseYamlFile asciiTables c!"---\n- #c\n  - 1" = .ok (docOf (.array [elem (.array [.comment c!"c", elem (plain c!"1")])])) ∧
    ¬ Survives asciiTables (docOf (.array [elem (.array [.comment c!"c", elem (plain c!"1")])])) :=
  ⟨by kernel_rfl, lost_of_err (by kernel_rfl)⟩

/-- **C43** A comment directly after a colon at the end of a plain scalar is parsed, but formatted with a space. -/
theorem C43_counterexample_colon :
    parseYamlFile asciiTables c!"---\na: b:#c" = .ok (docOf (.hash [kv c!"a" (plain c!"b:"), .inlineComment c!"c"])) ∧
    ¬ Survives asciiTables (docOf (.hash [kv c!"a" (plain c!"b:"), .inlineComment c!"c"])) :=
  ⟨by kernel_rfl, lost_of_err (by kernel_rfl)⟩

/-- **C43** An indentation indicator that is not the one the formatter would use changes the text. -/
theorem C43_counterexample_indicator :
    parseYamlFile asciiTables c!"---\n- k: |2\n    a" = .ok (docOf (.array [elem (.hash [kv c!"k" (.literalString [c!"  a"] .clip)])])) ∧
    ¬ Survives asciiTables (docOf (.array [elem (.hash [kv c!"k" (.literalString [c!"  a"] .clip)])])) :=
  ⟨by kernel_rfl, lost_of_other (d' := docOf (.array [elem (.hash [kv c!"k" (.literalString [c!"    a"] .clip)])])) (by kernel_rfl) (by simp [docOf, elem, kv])⟩

end YamlSubset
