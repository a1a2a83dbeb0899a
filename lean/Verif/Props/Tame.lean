import Verif.Lemmas.TameRead
import Verif.Props.Parse
import Verif.Props.RoundTrip

/-! # Formatting a parsed document (C43)

Formatting a parsed document and parsing the text again gives the document, if the document is laid out plainly
(`Spec/Tame.lean`). For each condition there is a text that parses to a document without it, and formatting loses the document. -/

namespace YamlSubset

open Spec

/-- **C43** Formatting a parsed document that is laid out plainly is lossless, and the formatted text is stable. -/
theorem C43_plain_documents (T : CharTables) (s : Str) (d : Document) (hp : parseYamlFile T s = .ok d) (h : TameDocument T d) :
    parseYamlFile T d.format = .ok d ∧ ∀ d', parseYamlFile T d.format = .ok d' → d'.format = d.format := by
  have hd : ParsedDocument T d := by
    rcases parse_fine T s with hf | hf
    · rw [hp] at hf; cases hf
    · rw [hp] at hf
      rcases hf with ⟨hb, -⟩ | ⟨v, hv, hd⟩
      · cases hb
      · cases hv; exact hd
  exact C43_readable_documents T s d hp (tame_readable h hd)

/-! ## an example -/

/-- A text with anchors, references, comments, flow collections, a block scalar, a sequence in a sequence and a mapping after a dash. -/
def tameText : Str :=
  c!"---\n# top\nname: 'x' # inline\nlist: &l\n- 1\n- [a, {b: *l}]\n# mid\nmap: &m\n  # first\n  k: |\n    text\n    more\nrows:\n  - - a # c\n    - b\n  - key: \"q\\n\"\n    other: -1\n# end"

/-- What it parses to. -/
def tameDoc : Document := ⟨[], [.comment c!" top", .yaml (.hash [
  kv c!"name" (.singleQuotedString [.string c!"x"]), .inlineComment c!" inline",
  .element ⟨c!"list", ⟨some c!"l", .array [elem (plain c!"1"), elem (.inlineArray [plain c!"a", .inlineHash [(c!"b", .anchor c!"l")]])]⟩⟩,
  .comment c!" mid",
  .element ⟨c!"map", ⟨some c!"m", .hash [.comment c!" first", kv c!"k" (.literalString [c!"text", c!"more"] .clip)]⟩⟩,
  kv c!"rows" (.array [elem (.array [elem (plain c!"a"), .inlineComment c!" c", elem (plain c!"b")]),
    elem (.hash [kv c!"key" (.doubleQuotedString [.string c!"q", .escapedChar .newline]), kv c!"other" (plain c!"-1")])])]),
  .comment c!" end"]⟩

theorem tamePlain_simple {T : CharTables} {c : Char} {s : Str} (hc : isSpaceSeparator c = false ∧ c ≠ '&') (hd : c = '-' → ¬ BlankStart s)
    (hs : ':' ∉ c :: s) : TamePlain T (c :: s) where
  nonempty := by simp
  start d h := by simp only [List.head?_cons, Option.some.injEq] at h; exact h ▸ hc.1
  notAnchor d t h := by simp only [List.cons.injEq] at h; exact absurd h.1 hc.2
  notDash t h := by simp only [List.cons.injEq] at h; exact h.2 ▸ hd h.1
  notKey d k t h := by rw [h] at hs; simp at hs

theorem tameHashComments_none {ds : List HashData} (h : ∀ c, .inlineComment c ∉ ds) (hl : ∀ c, ds.getLast? ≠ some (.comment c)) : TameHashComments ds where
  last := hl
  inline pre e c post heq := absurd (by rw [heq]; simp) (h c)

theorem tameArrayComments_none {ds : List ArrayData} (h : ∀ c, .inlineComment c ∉ ds) (hl : ∀ c, ds.getLast? ≠ some (.comment c)) : TameArrayComments ds where
  last := hl
  inline pre e c post heq := absurd (by rw [heq]; simp) (h c)

/-- The only comment at the end of a line is after the first entry. -/
theorem tameHashComments_first {e : HashElement} {c : Str} {ds : List HashData} (h : ∀ c, .inlineComment c ∉ ds)
    (hl : ∀ c', (HashData.element e :: .inlineComment c :: ds).getLast? ≠ some (.comment c')) (h1 : OneLineValue e.value.value) (h2 : Commentable e.value.value) :
    TameHashComments (.element e :: .inlineComment c :: ds) where
  last := hl
  inline pre e' c' post heq := by
    match pre with
    | [] => simp only [List.nil_append, List.cons.injEq, HashData.element.injEq] at heq; obtain ⟨rfl, -⟩ := heq; exact ⟨h1, h2⟩
    | [_] => simp at heq
    | _ :: _ :: pre =>
      simp only [List.cons_append, List.cons.injEq] at heq
      exact absurd (by rw [heq.2.2]; simp) (h c')

theorem tameArrayComments_first {e : AliasedYaml} {c : Str} {ds : List ArrayData} (h : ∀ c, .inlineComment c ∉ ds)
    (hl : ∀ c', (ArrayData.element e :: .inlineComment c :: ds).getLast? ≠ some (.comment c')) (h1 : OneLineValue e.value) (h2 : Commentable e.value) :
    TameArrayComments (.element e :: .inlineComment c :: ds) where
  last := hl
  inline pre e' c' post heq := by
    match pre with
    | [] => simp only [List.nil_append, List.cons.injEq, ArrayData.element.injEq] at heq; obtain ⟨rfl, -⟩ := heq; exact ⟨h1, h2⟩
    | [_] => simp at heq
    | _ :: _ :: pre =>
      simp only [List.cons_append, List.cons.injEq] at heq
      exact absurd (by rw [heq.2.2]; simp) (h c')

theorem tame_plain {T : CharTables} {sp : Site} {n : Bool} {c : Char} {s : Str} (hc : isSpaceSeparator c = false ∧ c ≠ '&') (hd : c = '-' → ¬ BlankStart s)
    (hs : ':' ∉ c :: s) : Tame T sp n (plain (c :: s)) := .plain (tamePlain_simple hc hd hs)

/-- The text parses, and the document is laid out plainly: the hypotheses of C43 hold. -/
theorem C43_example : parseYamlFile asciiTables tameText = .ok tameDoc ∧ TameDocument asciiTables tameDoc := by
  refine ⟨by kernel_rfl, ?_, ?_⟩
  · intro y hy
    simp only [tameDoc, List.mem_cons, reduceCtorEq, DocumentData.yaml.injEq, List.not_mem_nil, or_false, false_or] at hy
    subst hy
    refine .hash (by decide) (tameHashComments_first (by simp [kv]) (by simp [kv]) trivial (by simp [Commentable])) fun e he => ?_
    simp only [kv, List.mem_cons, reduceCtorEq, HashData.element.injEq, List.not_mem_nil, or_false, false_or] at he
    rcases he with rfl | rfl | rfl | rfl
    · exact .single
    · refine .seq (c := []) (.inr rfl) (tameArrayComments_none (by simp) (by simp)) (.inl rfl) trivial
        (tame_plain (by decide) (by simp) (by decide)) fun e he => ?_
      simp only [List.mem_cons, ArrayData.element.injEq, List.not_mem_nil, or_false] at he
      subst he
      refine .flowArray (.array fun v hv => ?_)
      simp only [List.mem_cons, List.not_mem_nil, or_false] at hv
      rcases hv with rfl | rfl
      · exact .plain (by decide)
      · refine .hash fun k v hm => ?_
        simp only [List.mem_cons, Prod.mk.injEq, List.not_mem_nil, or_false] at hm
        obtain ⟨-, rfl⟩ := hm
        exact .reference
    · refine .named (tameHashComments_none (by simp) (by simp)) fun e he => ?_
      simp only [List.mem_cons, HashData.element.injEq, List.not_mem_nil, or_false] at he
      subst he
      exact .literal (by decide) ⟨_, _, rfl, .inl ⟨_, _, rfl, by decide⟩⟩
    · refine .array (by decide) (tameArrayComments_none (by simp [elem]) (by simp [elem])) fun e he => ?_
      simp only [elem, List.mem_cons, ArrayData.element.injEq, List.not_mem_nil, or_false] at he
      rcases he with rfl | rfl
      · refine .seq (c := [.inlineComment _]) (.inl rfl) (tameArrayComments_first (by simp) (by simp) trivial (by simp [Commentable])) (.inr ⟨_, rfl⟩) trivial
          (tame_plain (by decide) (by simp) (by decide)) fun e he => ?_
        simp only [List.mem_cons, ArrayData.element.injEq, List.not_mem_nil, or_false] at he
        subst he
        exact tame_plain (by decide) (by simp) (by decide)
      · refine .here (.inl rfl) (tameHashComments_none (by simp) (by simp)) .double fun e he => ?_
        simp only [List.mem_cons, HashData.element.injEq, List.not_mem_nil, or_false] at he
        subst he
        exact tame_plain (by decide) (fun _ => by simp [BlankStart]; decide) (by decide)
  · intro y hy
    simp only [tameDoc, List.mem_cons, reduceCtorEq, DocumentData.yaml.injEq, List.not_mem_nil, or_false, false_or] at hy
    subst hy
    exact .inl ⟨_, _, rfl⟩

/-! ## what is lost without the conditions

See also the counterexamples in `Props/RoundTrip.lean`. -/

/-- **C43** A plain scalar that ends in a colon is parsed at the end of a flow sequence, but formatted with a space, where it does not
parse. -/
theorem C43_counterexample_flow_colon :
    parseYamlFile asciiTables c!"---\na: [b:]" = .ok (docOf (.hash [kv c!"a" (.inlineArray [plain c!"b:"])])) ∧
    ¬ Survives asciiTables (docOf (.hash [kv c!"a" (.inlineArray [plain c!"b:"])])) :=
  ⟨by kernel_rfl, lost_of_err (by kernel_rfl)⟩

/-- **C43** A sequence with an anchor that starts with a comment is parsed with the comment on the line of the anchor, but not in the
place where it is formatted. The same goes for a mapping after a dash. -/
theorem C43_counterexample_first_comment :
    (parseYamlFile asciiTables c!"---\na: &x #c\n  - 1\n  - 2" =
        .ok (docOf (.hash [.element ⟨c!"a", ⟨some c!"x", .array [.comment c!"c", elem (plain c!"1"), elem (plain c!"2")]⟩⟩])) ∧
      ¬ Survives asciiTables (docOf (.hash [.element ⟨c!"a", ⟨some c!"x", .array [.comment c!"c", elem (plain c!"1"), elem (plain c!"2")]⟩⟩]))) ∧
    (parseYamlFile asciiTables c!"---\n- #c\n  b: 1" = .ok (docOf (.array [elem (.hash [.comment c!"c", kv c!"b" (plain c!"1")])])) ∧
      ¬ Survives asciiTables (docOf (.array [elem (.hash [.comment c!"c", kv c!"b" (plain c!"1")])]))) :=
  ⟨⟨by kernel_rfl, lost_of_err (by kernel_rfl)⟩, ⟨by kernel_rfl, lost_of_err (by kernel_rfl)⟩⟩

/-- **C43** A sequence of one element in a sequence in a sequence takes the element that follows it. -/
theorem C43_counterexample_nested_sequences :
    parseYamlFile asciiTables c!"---\n- - \n  - b\n- a" = .ok (docOf (.array [elem (.array [elem (.array [elem (plain c!"b")]), elem (plain c!"a")])])) ∧
    ¬ Survives asciiTables (docOf (.array [elem (.array [elem (.array [elem (plain c!"b")]), elem (plain c!"a")])])) :=
  ⟨by kernel_rfl, lost_of_other (d' := docOf (.array [elem (.array [elem (.array [elem (plain c!"b"), elem (plain c!"a")])])])) (by kernel_rfl)
    (by simp [docOf, elem])⟩

/-- **C43** A block scalar that is the first element of a sequence in a sequence takes the line that follows it. -/
theorem C43_counterexample_nested_scalar :
    parseYamlFile asciiTables c!"---\n- - |\n  a\n- b" = .ok (docOf (.array [elem (.array [elem (.literalString [c!"a"] .clip), elem (plain c!"b")])])) ∧
    ¬ Survives asciiTables (docOf (.array [elem (.array [elem (.literalString [c!"a"] .clip), elem (plain c!"b")])])) :=
  ⟨by kernel_rfl, lost_of_other (d' := docOf (.array [elem (.array [elem (.literalString [c!"a", c!"b"] .clip)])])) (by kernel_rfl)
    (by simp [docOf, elem])⟩

end YamlSubset
