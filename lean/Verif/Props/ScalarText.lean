import Verif.Spec.ScalarText
import Verif.Props.RoundTrip

/-! # What the text of a scalar means (C49) -/

namespace YamlSubset

open Peg Spec

variable {T : CharTables}

/-! ## single quotes -/

theorem sqChain_cons_string {c : Char} {ps : List SQPart} (hc : c ≠ '\'' ∧ c ≠ '\n') (h : SQChain ps) :
    ∃ qs, SQChain qs ∧ qs.flatMap SQPart.format = c :: ps.flatMap SQPart.format ∧ parseSingleQuoted qs = c :: parseSingleQuoted ps := by
  match ps, h with
  | [], _ => exact ⟨[.string [c]], .one (by simpa [SQPartText] using hc), rfl, rfl⟩
  | .string s :: ps, h =>
    refine ⟨.string (c :: s) :: ps, ?_, rfl, rfl⟩
    cases h with
    | one h => exact .one ⟨by simp, by simp [SQPartText] at h; simpa [hc] using h.2⟩
    | cons h ht hb hps => exact .cons ⟨by simp, by simp [SQPartText] at h; simpa [hc] using h.2⟩ (by simpa using ht) (by simp) hps
  | .escapedChar e :: ps, h => exact ⟨.string [c] :: .escapedChar e :: ps, .cons (by simpa [SQPartText] using hc) (by simp) (by simp) h, rfl, rfl⟩
  | .blankLines n :: ps, h => exact ⟨.string [c] :: .blankLines n :: ps, .cons (by simpa [SQPartText] using hc) (by simp) (by simp) h, rfl, rfl⟩
  | .removableNewline :: ps, h => exact ⟨.string [c] :: .removableNewline :: ps, .cons (by simpa [SQPartText] using hc) (by simp) (by simp) h, rfl, rfl⟩

theorem sqChain_cons_quote {ps : List SQPart} (h : SQChain ps) : SQChain (.escapedChar .singleQuote :: ps) := by
  match ps, h with
  | [], _ => exact .one trivial
  | q :: ps, h => exact .cons trivial (by simp) (by simp) h

theorem sqChain_cons_newline {ps : List SQPart} (h : SQChain ps) (hn : (ps.flatMap SQPart.format).head? ≠ some '\n') : SQChain (.removableNewline :: ps) := by
  match ps, h with
  | [], _ => exact .one trivial
  | q :: ps, h =>
    refine .cons trivial (by simp) ?_ h
    rintro ⟨-, rfl | ⟨n, rfl⟩⟩ <;> simp [SQPart.format, List.replicate_succ] at hn

theorem sqChain_more_newlines {ps : List SQPart} {t : Str} (h : SQChain ps) (hf : ps.flatMap SQPart.format = '\n' :: t) :
    ∃ qs, SQChain qs ∧ qs.flatMap SQPart.format = '\n' :: ps.flatMap SQPart.format ∧ parseSingleQuoted qs = '\n' :: parseSingleQuoted ps := by
  have key : ∀ (p : SQPart) (n : Nat) (ps : List SQPart), (p = .removableNewline ∧ n = 1 ∨ p = .blankLines n ∧ 1 ≤ n) → SQChain (p :: ps) → SQChain (.blankLines (n + if p = .removableNewline then 0 else 1) :: ps) := by
    intro p n ps hp h
    cases h with
    | one h => exact .one (by simp [SQPartText]; omega)
    | cons h ht hb hps => exact .cons (by simp [SQPartText]; omega) (by simp) (by rcases hp with ⟨rfl, -⟩ | ⟨rfl, -⟩ <;> simpa using hb) hps
  match ps, h with
  | [], _ => simp at hf
  | .string s :: ps, h =>
    have : SQPartText (.string s) := by cases h <;> assumption
    obtain ⟨h1, h2⟩ := this
    match s, h1 with
    | c :: s, _ =>
      simp [SQPart.format] at hf
      exact absurd hf.1 (h2 c (by simp)).2
  | .escapedChar .singleQuote :: ps, h => simp [SQPart.format] at hf
  | .blankLines n :: ps, h =>
    have hn : 1 ≤ n := by cases h <;> assumption
    exact ⟨.blankLines (n + 1) :: ps, key _ n _ (.inr ⟨rfl, hn⟩) h, by simp [SQPart.format, List.replicate_succ], by simp [parseSingleQuoted, SQPart.value, List.replicate_succ]⟩
  | .removableNewline :: ps, h =>
    exact ⟨.blankLines 1 :: ps, key _ 1 _ (.inl ⟨rfl, rfl⟩) h, rfl, rfl⟩

theorem singleQuoted_parts {x v : Str} (h : singleQuotedValue x = some v) :
    ∃ ps, SQChain ps ∧ ps.flatMap SQPart.format = x ∧ parseSingleQuoted ps = v := by
  induction x using singleQuotedValue.induct generalizing v with
  | case1 => simp [singleQuotedValue] at h; exact ⟨[], .nil, rfl, by simpa [parseSingleQuoted] using h⟩
  | case2 t ih =>
    simp only [singleQuotedValue, Option.map_eq_some_iff] at h
    obtain ⟨w, hw, rfl⟩ := h
    obtain ⟨ps, h1, h2, h3⟩ := ih hw
    exact ⟨_, sqChain_cons_quote h1, by simp [SQPart.format, SQEscapedChar.char, h2], by simp [parseSingleQuoted, SQPart.value, SQEscapedChar.char] at h3 ⊢; exact h3⟩
  | case3 t hne => rw [singleQuotedValue] at h <;> simp_all
  | case4 t ih =>
    simp only [singleQuotedValue, Option.map_eq_some_iff] at h
    obtain ⟨w, hw, rfl⟩ := h
    obtain ⟨ps, h1, h2, h3⟩ := ih hw
    obtain ⟨qs, g1, g2, g3⟩ := sqChain_more_newlines h1 h2
    exact ⟨qs, g1, by rw [g2, h2], by rw [g3, h3]⟩
  | case5 t hne ih =>
    rw [singleQuotedValue] at h
    · obtain ⟨ps, h1, h2, h3⟩ := ih h
      refine ⟨_, sqChain_cons_newline h1 ?_, by simp [SQPart.format, h2], by simpa [parseSingleQuoted, SQPart.value] using h3⟩
      rw [h2]
      cases t with
      | nil => simp
      | cons c t => simpa using fun hc => hne t (by rw [hc])
    · exact hne
  | case6 c t h1 h2 h3 h4 ih =>
    rw [singleQuotedValue, Option.map_eq_some_iff] at h
    · obtain ⟨w, hw, rfl⟩ := h
      obtain ⟨ps, g1, g2, g3⟩ := ih hw
      obtain ⟨qs, e1, e2, e3⟩ := sqChain_cons_string (c := c) ⟨by grind, by grind⟩ g1
      exact ⟨qs, e1, by rw [e2, g2], by rw [e3, g3]⟩
    all_goals grind

/-! ## double quotes -/

theorem dqChain_cons_string {c : Char} {ps : List DQPart} (hc : c ≠ '"' ∧ c ≠ '\\' ∧ c ≠ '\n') (h : DQChain ps) :
    ∃ qs, DQChain qs ∧ qs.flatMap DQPart.format = c :: ps.flatMap DQPart.format ∧ parseDoubleQuoted qs = c :: parseDoubleQuoted ps := by
  match ps, h with
  | [], _ => exact ⟨[.string [c]], .one (by simpa [DQPartText] using hc), rfl, rfl⟩
  | .string s :: ps, h =>
    refine ⟨.string (c :: s) :: ps, ?_, rfl, rfl⟩
    cases h with
    | one h => exact .one ⟨by simp, by simp [DQPartText] at h; simpa [hc] using h.2⟩
    | cons h ht hb hps => exact .cons ⟨by simp, by simp [DQPartText] at h; simpa [hc] using h.2⟩ (by simpa using ht) (by simp) hps
  | .escapedChar e :: ps, h => exact ⟨.string [c] :: .escapedChar e :: ps, .cons (by simpa [DQPartText] using hc) (by simp) (by simp) h, rfl, rfl⟩
  | .blankLines n :: ps, h => exact ⟨.string [c] :: .blankLines n :: ps, .cons (by simpa [DQPartText] using hc) (by simp) (by simp) h, rfl, rfl⟩
  | .removableNewline :: ps, h => exact ⟨.string [c] :: .removableNewline :: ps, .cons (by simpa [DQPartText] using hc) (by simp) (by simp) h, rfl, rfl⟩

theorem dqChain_cons_escape {ps : List DQPart} (e : DQEscapedChar) (h : DQChain ps) : DQChain (.escapedChar e :: ps) := by
  match ps, h with
  | [], _ => exact .one trivial
  | q :: ps, h => exact .cons trivial (by simp) (by simp) h

theorem dqChain_cons_newline {ps : List DQPart} (h : DQChain ps) (hn : (ps.flatMap DQPart.format).head? ≠ some '\n') : DQChain (.removableNewline :: ps) := by
  match ps, h with
  | [], _ => exact .one trivial
  | q :: ps, h =>
    refine .cons trivial (by simp) ?_ h
    rintro ⟨-, rfl | ⟨n, rfl⟩⟩ <;> simp [DQPart.format, List.replicate_succ] at hn

theorem dqChain_more_newlines {ps : List DQPart} {t : Str} (h : DQChain ps) (hf : ps.flatMap DQPart.format = '\n' :: t) :
    ∃ qs, DQChain qs ∧ qs.flatMap DQPart.format = '\n' :: ps.flatMap DQPart.format ∧ parseDoubleQuoted qs = '\n' :: parseDoubleQuoted ps := by
  have key : ∀ (p : DQPart) (n : Nat) (ps : List DQPart), (p = .removableNewline ∧ n = 1 ∨ p = .blankLines n ∧ 1 ≤ n) → DQChain (p :: ps) → DQChain (.blankLines (n + if p = .removableNewline then 0 else 1) :: ps) := by
    intro p n ps hp h
    cases h with
    | one h => exact .one (by simp [DQPartText]; omega)
    | cons h ht hb hps => exact .cons (by simp [DQPartText]; omega) (by simp) (by rcases hp with ⟨rfl, -⟩ | ⟨rfl, -⟩ <;> simpa using hb) hps
  match ps, h with
  | [], _ => simp at hf
  | .string s :: ps, h =>
    have : DQPartText (.string s) := by cases h <;> assumption
    obtain ⟨h1, h2⟩ := this
    match s, h1 with
    | c :: s, _ =>
      simp [DQPart.format] at hf
      exact absurd hf.1 (h2 c (by simp)).2.2
  | .escapedChar e :: ps, h => simp [DQPart.format] at hf
  | .blankLines n :: ps, h =>
    have hn : 1 ≤ n := by cases h <;> assumption
    exact ⟨.blankLines (n + 1) :: ps, key _ n _ (.inr ⟨rfl, hn⟩) h, by simp [DQPart.format, List.replicate_succ], by simp [parseDoubleQuoted, DQPart.value, List.replicate_succ]⟩
  | .removableNewline :: ps, h =>
    exact ⟨.blankLines 1 :: ps, key _ 1 _ (.inl ⟨rfl, rfl⟩) h, rfl, rfl⟩


theorem escape_part {c d : Char} (h : escapeValue c = some d) : ∃ e : DQEscapedChar, e.char = c ∧ e.realChar = d := by
  unfold escapeValue at h
  split at h <;> simp at h <;> subst h
  · exact ⟨.newline, rfl, rfl⟩
  · exact ⟨.carriageReturn, rfl, rfl⟩
  · exact ⟨.tab, rfl, rfl⟩
  · exact ⟨.backslash, rfl, rfl⟩
  · exact ⟨.quote, rfl, rfl⟩
  · exact ⟨.realNewline, rfl, rfl⟩

theorem doubleQuoted_parts {x v : Str} (h : doubleQuotedValue x = some v) :
    ∃ ps, DQChain ps ∧ ps.flatMap DQPart.format = x ∧ parseDoubleQuoted ps = v := by
  induction x using doubleQuotedValue.induct generalizing v with
  | case1 => simp [doubleQuotedValue] at h; exact ⟨[], .nil, rfl, by simpa [parseDoubleQuoted] using h⟩
  | case2 t => simp [doubleQuotedValue] at h
  | case3 => simp [doubleQuotedValue] at h
  | case4 c t ih =>
    simp only [doubleQuotedValue, Option.bind_eq_some_iff, Option.map_eq_some_iff] at h
    obtain ⟨d, hd, w, hw, rfl⟩ := h
    obtain ⟨ps, h1, h2, h3⟩ := ih hw
    obtain ⟨e, rfl, rfl⟩ := escape_part hd
    exact ⟨_, dqChain_cons_escape e h1, by simp [DQPart.format, h2], by simp [parseDoubleQuoted, DQPart.value] at h3 ⊢; exact h3⟩
  | case5 t ih =>
    simp only [doubleQuotedValue, Option.map_eq_some_iff] at h
    obtain ⟨w, hw, rfl⟩ := h
    obtain ⟨ps, h1, h2, h3⟩ := ih hw
    obtain ⟨qs, g1, g2, g3⟩ := dqChain_more_newlines h1 h2
    exact ⟨qs, g1, by rw [g2, h2], by rw [g3, h3]⟩
  | case6 t hne ih =>
    rw [doubleQuotedValue] at h
    · obtain ⟨ps, h1, h2, h3⟩ := ih h
      refine ⟨_, dqChain_cons_newline h1 ?_, by simp [DQPart.format, h2], by simpa [parseDoubleQuoted, DQPart.value] using h3⟩
      rw [h2]
      cases t with
      | nil => simp
      | cons c t => simpa using fun hc => hne t (by rw [hc])
    · exact hne
  | case7 c t h1 h2 h3 h4 h5 ih =>
    rw [doubleQuotedValue, Option.map_eq_some_iff] at h
    · obtain ⟨w, hw, rfl⟩ := h
      obtain ⟨ps, g1, g2, g3⟩ := ih hw
      obtain ⟨qs, e1, e2, e3⟩ := dqChain_cons_string (c := c) ⟨by grind, by cases t <;> grind, by grind⟩ g1
      exact ⟨qs, e1, by rw [e2, g2], by rw [e3, g3]⟩
    all_goals grind

/-! ## block scalars -/

theorem foldl_foldedRest (ls : List Str) (s : Str) (b : Bool) : (ls.foldl parseFoldedStep (s, b)).1 = s ++ foldedRest (!b) ls := by
  induction ls generalizing s b with
  | nil => simp [foldedRest]
  | cons l t ih =>
    cases l with
    | nil => simp [parseFoldedStep, foldedRest, ih]
    | cons c l =>
      by_cases hc : c = ' '
      · simp [parseFoldedStep, foldedRest, ih, startsWithChar, hc]
      · cases b <;> simp [parseFoldedStep, foldedRest, ih, startsWithChar, hc]

theorem chomped_handle (c : BlockChomping) (s : Str) : Chomped c (s ++ ['\n']) (handleEndingNewlines s c) := by
  obtain ⟨h1, k, h2⟩ := trimEndMatches_spec s '\n'
  have h3 : s ++ ['\n'] = trimEndMatches s '\n' ++ List.replicate (k + 1) '\n' := by
    conv => lhs; rw [h2]
    simp [List.replicate_succ']
  have h4 : (trimEndMatches s '\n').getLast? ≠ some '\n' := by
    intro hl
    rw [Bool.eq_false_iff] at h1
    exact h1 ((endsWithChar_iff _ _).2 ((List.getLast?_eq_some_iff).1 hl))
  cases c with
  | keep => rfl
  | strip => exact ⟨h4, _, h3⟩
  | clip => exact ⟨_, _, rfl, h4, h3⟩

/-! ## documents -/

/-- The document `k: x` as a text. -/
def fieldText (k x : Str) : Str := c!"---\n" ++ k ++ c!": " ++ x

theorem field_parses {k x : Str} {y : Yaml} (hk : KeyText T k) (hy : Readable T ⟨false, true, .none⟩ .key false y) (hf : y.format 2 (some .hash) = ' ' :: x) :
    parseYamlFile T (fieldText k x) = .ok (docOf (.hash [kv k y])) := by
  have h := C41_formatted_documents_parse T (docOf (.hash [kv k y]))
    ⟨by simp [docOf], [], [], _, rfl, by simp, .hash (.last hk no_name hy)⟩
  rw [← h]
  congr 1
  simp [fieldText, docOf, Document.format, DocumentData.format, Yaml.format, formatHash, kv, hf, indent]

/-- **C49** Every text between single quotes without a quote that would end it is read with the value that the specification
gives it, in block and in flow style. -/
theorem C49_single_quoted_text (T : CharTables) (k x v : Str) (hk : KeyText T k) (h : singleQuotedValue x = some v) :
    ∃ y : Yaml, y.asString = some v ∧ parseYamlFile T (fieldText k ('\'' :: x ++ ['\''])) = .ok (docOf (.hash [kv k y])) ∧
      parseYamlFile T (fieldText k (c!"[ '" ++ x ++ c!"' ]")) = .ok (docOf (.hash [kv k (.inlineArray [y])])) := by
  obtain ⟨ps, h1, rfl, rfl⟩ := singleQuoted_parts h
  exact ⟨.singleQuotedString ps, rfl, field_parses hk (.oneLine (.single h1)) (by simp [Yaml.format]),
    field_parses hk (.oneLine (.array (.array fun v hv => by simp at hv; subst hv; exact .single h1))) (by simp [Yaml.format, formatInlineElements])⟩

/-- **C49** Every text between double quotes with known escapes is read with the value that the specification gives it, in
block and in flow style. -/
theorem C49_double_quoted_text (T : CharTables) (k x v : Str) (hk : KeyText T k) (h : doubleQuotedValue x = some v) :
    ∃ y : Yaml, y.asString = some v ∧ parseYamlFile T (fieldText k ('"' :: x ++ ['"'])) = .ok (docOf (.hash [kv k y])) ∧
      parseYamlFile T (fieldText k (c!"[ \"" ++ x ++ c!"\" ]")) = .ok (docOf (.hash [kv k (.inlineArray [y])])) := by
  obtain ⟨ps, h1, rfl, rfl⟩ := doubleQuoted_parts h
  exact ⟨.doubleQuotedString ps, rfl, field_parses hk (.oneLine (.double h1)) (by simp [Yaml.format]),
    field_parses hk (.oneLine (.array (.array fun v hv => by simp at hv; subst hv; exact .double h1))) (by simp [Yaml.format, formatInlineElements])⟩

/-- **C49** Every plain text that does not look like something else is read as it stands. -/
theorem C49_plain_text (T : CharTables) (k x : Str) (hk : KeyText T k) (h : BlockPlain T x) :
    ∃ y : Yaml, y.asString = some x ∧ parseYamlFile T (fieldText k x) = .ok (docOf (.hash [kv k y])) :=
  ⟨.unquotedString x, rfl, field_parses hk (.oneLine (.plain h)) rfl⟩

/-- The text of a block scalar. -/
def blockScalarText (folded : Bool) (chomping : BlockChomping) (ls : List Str) : Str :=
  (if folded then '>' else '|') :: chompingMark chomping ++ ls.flatMap fun l => c!"\n  " ++ l

/-- **C49** Every block scalar whose first line starts with a visible character is read with the value that the specification
gives it. -/
theorem C49_block_scalar_text (T : CharTables) (k : Str) (folded : Bool) (chomping : BlockChomping) (c : Char) (l : Str) (ls : List Str) (hk : KeyText T k)
    (hc : isWhitespace c = false) (hl : ∀ x ∈ (c :: l) :: ls, LineText x) :
    ∃ (y : Yaml) (v : Str), y.asString = some v ∧ Chomped chomping (blockContent folded ((c :: l) :: ls)) v ∧
      parseYamlFile T (fieldText k (blockScalarText folded chomping ((c :: l) :: ls))) = .ok (docOf (.hash [kv k y])) := by
  have hb : BlockLines true ((c :: l) :: ls) := ⟨hl, _, _, rfl, .inl ⟨_, _, rfl, hc⟩⟩
  have hsp : c ≠ ' ' := by rintro rfl; exact absurd hc (by decide)
  cases folded with
  | false =>
    refine ⟨.literalString ((c :: l) :: ls) chomping, _, rfl, ?_, field_parses hk (.literal rfl hb) ?_⟩
    · simp only [blockContent, Bool.false_eq_true, if_false, parseLiteral]
      rw [← joinLines_flatMap]
      exact chomped_handle _ _
    · cases chomping <;> simp [Yaml.format, formatBlockLines, blockScalarText, BlockChomping.write, chompingMark, startsWithChar, hsp, indent, List.replicate]
  | true =>
    refine ⟨.foldedString ((c :: l) :: ls) chomping, _, rfl, ?_, field_parses hk (.folded rfl hb) ?_⟩
    · simp only [blockContent, if_true, parseFolded, foldl_foldedRest]
      exact chomped_handle _ _
    · cases chomping <;> simp [Yaml.format, formatBlockLines, blockScalarText, BlockChomping.write, chompingMark, startsWithChar, hsp, indent, List.replicate]

example : singleQuotedValue c!"it''s\n\n\nx\ny" = some c!"it's\n\nxy" ∧ singleQuotedValue c!"it's" = none ∧
    doubleQuotedValue c!"a\\tb\\\n\n\nc\\\"" = some c!"a\tb\n\nc\"" ∧ doubleQuotedValue c!"\\x" = none := by decide +kernel

example : blockContent true [c!"a", c!"b", c!"", c!"c", c!"  d", c!"e", c!""] = c!"a b\nc\n  d\ne\n\n" ∧
    Chomped .clip c!"a\n\n" c!"a\n" ∧ KeyText asciiTables c!"k" :=
  ⟨rfl, ⟨c!"a", 2, rfl, by decide, rfl⟩, keyText_of (by decide)⟩

/-- **C49** An unknown escape is an error, a quote in the middle ends the scalar. -/
theorem C49_other_quotes : parseYamlFile asciiTables (fieldText c!"k" c!"\"\\x\"") = .err ∧ parseYamlFile asciiTables (fieldText c!"k" c!"'it's'") = .err :=
  ⟨by kernel_rfl, by kernel_rfl⟩

end YamlSubset
