import Verif.Model.Peg

/-! # The grammar `src/yaml.pest`, rule by rule

`src/yaml.pest` defines no `WHITESPACE`/`COMMENT` rule, so pest inserts no implicit
skipping in it. -/

namespace YamlSubset

open Peg

/-- The Unicode tables behind pest's `LETTER` and `NUMBER` (general categories L and N).
The model is parametric in them: the theorems hold for every pair of tables with
these properties: used at src/yaml.pest:3, 4, 48. -/
structure CharTables where
  letter : Char → Bool
  number : Char → Bool
  letter_ascii : ∀ c : Char, c.toNat < 128 →
    letter c = ((65 ≤ c.toNat && c.toNat ≤ 90) || (97 ≤ c.toNat && c.toNat ≤ 122))
  number_ascii : ∀ c : Char, c.toNat < 128 → number c = (48 ≤ c.toNat && c.toNat ≤ 57)
  letter_not_white : ∀ c : Char, isWhitespace c = true → letter c = false
  number_not_white : ∀ c : Char, isWhitespace c = true → number c = false

/-- pest `SPACE_SEPARATOR`: Unicode general category Zs: used for example at src/yaml.pest:29, 60, 63. -/
def isSpaceSeparator (c : Char) : Bool :=
  let n := c.toNat
  n == 0x20 || n == 0xA0 || n == 0x1680 || (0x2000 ≤ n && n ≤ 0x200A)
    || n == 0x202F || n == 0x205F || n == 0x3000

/-- Names of the rules of `src/yaml.pest`. -/
inductive Rule where
  | EOI | space | spaces | hash_key | alias_name
  | disallowed_unquoted_inline_string_start_elements
  | disallowed_unquoted_inline_string_elements
  | unquoted_inline_string_elements | unquoted_inline_string_start_elements
  | unquoted_inline_string
  | disallowed_unquoted_string_start_elements | disallowed_unquoted_string_elements
  | unquoted_string_elements | unquoted_string_start_elements | unquoted_string
  | escaped_double_quote_char_value | escaped_double_quote_char | double_quote_text
  | double_quote_without_escape | double_quote_content | double_quoted_string
  | single_quote | single_quote_char | blank_lines | removable_newline | single_quote_text
  | escaped_single_quote_char | single_quote_content | single_quoted_string
  | string | inline_array_string
  | block_string | block_empty_lines | string_multiline_content_part
  | string_multiline_trailing | string_multiline_content | string_multiline_indent
  | string_multiline_folded | string_multiline_literal | string_block_chomping
  | anchor | alias | inline_value | inline_array_value | inline_array
  | block_array_element | first_block_array_element | block_array_data | block_array
  | array | alternative_array
  | block_array_aliased_yaml_value | alternative_aliased_yaml_value
  | yaml_value | aliased_yaml_value
  | hash_element | first_hash_element | hash_element_data | hash
  | alternative_hash_continuation | alternative_hash
  | inline_hash_element | inline_hash
  | comment_text | commentnl | comment_base | comment | commentnls | leading_comments
  | blank | blanknl | document | yaml
  deriving DecidableEq, Repr

namespace Rule

/-- Kinds of the rules of `src/yaml.pest`. -/
def kind : Rule → Kind
  | .space | .spaces | .escaped_double_quote_char | .single_quote_char | .comment_base
  | .blank | .blanknl => .silent
  | .unquoted_inline_string | .unquoted_string | .block_string | .block_empty_lines
  | .string_multiline_trailing => .atomic
  | _ => .normal

/-- A one-character literal: for example src/yaml.pest:1. -/
abbrev lit (c : Char) : Expr Rule := .str [c]
/-- pest built-in `NEWLINE`: used for example at src/yaml.pest:1, 43-47. -/
def NEWLINE : Expr Rule := .alts [.str ['\n'], .str ['\r', '\n'], .str ['\r']]
/-- pest built-in `ANY`: used for example at src/yaml.pest:14-22. -/
def ANY : Expr Rule := .cls (fun _ => true)
/-- pest built-in `SPACE_SEPARATOR`: used for example at src/yaml.pest:29, 60, 63. -/
def SP : Expr Rule := .cls isSpaceSeparator

/-- Bodies of the rules of `src/yaml.pest`; the line of each rule is given. The rules
`number` (6-11) and `string_value` (22) are not reachable from any other rule and are
left out. -/
def body (T : CharTables) : Rule → Expr Rule
  | .EOI => .eoi .EOI
  -- 1
  | .space => .alt (lit ' ') NEWLINE
  -- 2
  | .spaces => .star (.rule space)
  -- 3
  | .hash_key => .seq (.alts [.cls T.letter, .cls T.number, lit '_'])
      (.star (.alts [.cls T.letter, .cls T.number, lit '_', lit '-', lit ' ']))
  -- 4
  | .alias_name => .plus (.alts [.cls T.letter, .cls T.number, lit '_'])
  -- 12
  | .disallowed_unquoted_inline_string_start_elements =>
    .alts [lit ',', lit '[', lit ']', lit '{', lit '}', .str [':', ' '], lit '"', lit '\'',
      lit '#', NEWLINE]
  -- 13
  | .disallowed_unquoted_inline_string_elements =>
    .alts [lit ',', lit '[', lit ']', lit '{', lit '}', .str [':', ' '], lit '"', lit '#',
      lit '>', lit '|', NEWLINE]
  -- 14
  | .unquoted_inline_string_elements =>
    .seq (.not (.rule disallowed_unquoted_inline_string_elements)) ANY
  -- 15
  | .unquoted_inline_string_start_elements =>
    .seq (.not (.rule disallowed_unquoted_inline_string_start_elements)) ANY
  -- 16
  | .unquoted_inline_string =>
    .seq (.rule unquoted_inline_string_start_elements)
      (.star (.rule unquoted_inline_string_elements))
  -- 17
  | .disallowed_unquoted_string_start_elements =>
    .alts [lit '[', lit ']', lit '{', lit '}', .str [':', ' '], lit '"', lit '\'', lit '#',
      lit '>', lit '|', NEWLINE]
  -- 18
  | .disallowed_unquoted_string_elements => .alts [.str [':', ' '], lit '#', NEWLINE]
  -- 19
  | .unquoted_string_elements => .seq (.not (.rule disallowed_unquoted_string_elements)) ANY
  -- 20
  | .unquoted_string_start_elements =>
    .seq (.not (.rule disallowed_unquoted_string_start_elements)) ANY
  -- 21
  | .unquoted_string =>
    .seq (.rule unquoted_string_start_elements) (.star (.rule unquoted_string_elements))
  -- 24
  | .escaped_double_quote_char_value =>
    .alts [lit 'n', lit '\\', lit 'r', lit 't', lit '"', lit '\n']
  -- 25
  | .escaped_double_quote_char => .seq (lit '\\') (.rule escaped_double_quote_char_value)
  -- 26
  | .double_quote_text => .plus (.seq (.not (.alts [lit '"', lit '\\', lit '\n'])) ANY)
  -- 27
  | .double_quote_without_escape =>
    .alts [.rule escaped_double_quote_char, .rule blank_lines, .rule removable_newline,
      .rule double_quote_text]
  -- 28
  | .double_quote_content => .star (.rule double_quote_without_escape)
  -- 29
  | .double_quoted_string =>
    .seqs [.push (lit '"'), .rule double_quote_content, .pop, .star SP]
  -- 31
  | .single_quote => lit '\''
  -- 32
  | .single_quote_char => .seq (lit '\'') (.rule single_quote)
  -- 33
  | .blank_lines => .seq (lit '\n') (.plus (lit '\n'))
  -- 34
  | .removable_newline => lit '\n'
  -- 35
  | .single_quote_text => .plus (.seq (.not (.alts [lit '\'', lit '\n'])) ANY)
  -- 36
  | .escaped_single_quote_char =>
    .alts [.rule single_quote_char, .rule blank_lines, .rule removable_newline,
      .rule single_quote_text]
  -- 37
  | .single_quote_content => .star (.rule escaped_single_quote_char)
  -- 38
  | .single_quoted_string =>
    .seqs [.push (lit '\''), .rule single_quote_content, .pop, .star SP]
  -- 40
  | .string =>
    .alts [.rule unquoted_string, .rule double_quoted_string, .rule single_quoted_string]
  -- 41
  | .inline_array_string =>
    .alts [.rule unquoted_inline_string, .rule double_quoted_string, .rule single_quoted_string]
  -- 43
  | .block_string => .alt (.plus (.seq (.not NEWLINE) ANY)) (.str [])
  -- 44
  | .block_empty_lines => .star NEWLINE
  -- 45
  | .string_multiline_content_part =>
    .seqs [NEWLINE, .rule block_empty_lines, .peek2, .rule block_string]
  -- 46
  | .string_multiline_trailing => .star (.seq NEWLINE (.and NEWLINE))
  -- 47
  | .string_multiline_content =>
    .seqs [.rule blanknl, .rule block_empty_lines,
      .seqs [.peek, .push (lit ' '), .rule block_string],
      .star (.rule string_multiline_content_part), .rule string_multiline_trailing, .drop]
  -- 48
  | .string_multiline_indent => .star (.plus (.cls T.number))
  -- 49
  | .string_multiline_folded =>
    .seqs [lit '>', .opt (.rule string_block_chomping), .rule string_multiline_indent,
      .rule string_multiline_content]
  -- 50
  | .string_multiline_literal =>
    .seqs [lit '|', .opt (.rule string_block_chomping), .rule string_multiline_indent,
      .rule string_multiline_content]
  -- 52
  | .string_block_chomping => .alt (lit '-') (lit '+')
  -- 54
  | .anchor => .seq (lit '*') (.rule alias_name)
  -- 55
  | .alias => .seq (lit '&') (.rule alias_name)
  -- 56
  | .inline_value => .alts [.rule anchor, .rule inline_array, .rule inline_hash, .rule string]
  -- 57
  | .inline_array_value =>
    .alts [.rule anchor, .rule inline_array, .rule inline_hash, .rule inline_array_string]
  -- 59
  | .inline_array =>
    .seqs [lit '[',
      .opt (.seqs [.rule spaces, .rule inline_array_value,
        .star (.seqs [.rule spaces, lit ',', .rule spaces, .rule inline_array_value])]),
      .rule spaces, lit ']']
  -- 60
  | .block_array_element =>
    .seqs [lit '-', .plus SP, .rule block_array_aliased_yaml_value]
  -- 61
  | .first_block_array_element => .seq (.rule block_array_element) (.opt (.rule comment))
  -- 62
  | .block_array_data =>
    .seqs [.rule commentnls, .peek, .rule block_array_element, .opt (.rule comment)]
  -- 63
  | .block_array =>
    .seqs [.rule commentnls, .rule blank, .push (.star SP), .rule first_block_array_element,
      .star SP, .star (.seq (.rule blank) (.rule block_array_data)), .drop, .rule commentnls]
  -- 64
  | .array => .alt (.rule inline_array) (.rule block_array)
  -- 65
  | .alternative_array =>
    .seqs [.rule first_block_array_element, .rule blanknl, .push (.star SP),
      .rule first_block_array_element, .star SP,
      .star (.seq (.rule blanknl) (.rule block_array_data)), .drop, .rule commentnls]
  -- 67
  | .block_array_aliased_yaml_value =>
    .alt (.rule alternative_aliased_yaml_value) (.rule aliased_yaml_value)
  -- 68
  | .alternative_aliased_yaml_value =>
    .seq (.opt (.seq (.rule alias) (.rule spaces)))
      (.alt (.rule alternative_hash) (.rule alternative_array))
  -- 70
  | .yaml_value =>
    .alts [.rule hash, .rule array, .rule string_multiline_literal,
      .rule string_multiline_folded, .rule inline_value]
  -- 71
  | .aliased_yaml_value => .seq (.opt (.seq (.rule alias) (.star SP))) (.rule yaml_value)
  -- 72
  | .hash_element =>
    .seqs [.rule hash_key, lit ':', .alt (.plus SP) (.rule blanknl),
      .rule block_array_aliased_yaml_value]
  -- 73
  | .first_hash_element => .seq (.rule hash_element) (.opt (.rule comment))
  -- 74
  | .hash_element_data =>
    .seqs [.rule blanknl, .rule commentnls, .peek, .rule hash_element, .opt (.rule comment)]
  -- 75
  | .hash =>
    .seqs [.opt NEWLINE, .rule commentnls, .rule blank, .push (.star SP),
      .rule first_hash_element, .star (.rule hash_element_data), .drop, .rule commentnls]
  -- 77
  | .alternative_hash_continuation =>
    .seqs [.rule blanknl, .rule commentnls, .and (.seq .peek (.plus SP)), .push (.star SP),
      .rule first_hash_element, .star (.rule hash_element_data), .drop]
  -- 78
  | .alternative_hash =>
    .seqs [.rule first_hash_element, .opt (.rule alternative_hash_continuation),
      .rule commentnls]
  -- 81
  | .inline_hash_element =>
    .seqs [.rule hash_key, .rule spaces, lit ':', .rule spaces, .rule inline_array_value]
  -- 82
  | .inline_hash =>
    .seqs [lit '{',
      .opt (.seqs [.rule spaces, .rule inline_hash_element,
        .star (.seqs [.rule spaces, lit ',', .rule spaces, .rule inline_hash_element])]),
      .rule spaces, lit '}']
  -- 84
  | .comment_text => .star (.seq (.not NEWLINE) ANY)
  -- 85
  | .comment_base => .seqs [.star SP, lit '#', .rule comment_text]
  -- 86
  | .commentnl => .seq (.rule comment_base) (.rule blank)
  -- 87
  | .comment => .rule comment_base
  -- 88
  | .commentnls => .star (.rule commentnl)
  -- 90
  | .leading_comments =>
    .star (.seqs [.star (.rule blanknl), .rule commentnl, .star (.rule blanknl)])
  -- 92
  | .blank => .alt (.seqs [.star SP, NEWLINE, .plus (.seq (.star SP) NEWLINE)])
      (.opt (.seq (.star SP) NEWLINE))
  -- 93
  | .blanknl => .alt (.seqs [.star SP, NEWLINE, .plus (.seq (.star SP) NEWLINE)])
      (.seq (.star SP) NEWLINE)
  -- 95
  | .document => .alt (.rule hash) (.rule array)
  -- 96
  | .yaml =>
    .seqs [.soi, .rule leading_comments, .str ['-', '-', '-'], .rule blanknl,
      .rule commentnls, .rule document, .rule blank,
      .star (.seq (.rule comment) (.rule blank)), .rule spaces, .eoi .EOI]

end Rule

/-- The grammar `src/yaml.pest`. -/
def yamlGrammar (T : CharTables) : Grammar Rule := ⟨Rule.kind, Rule.body T⟩

/-- ASCII letters and digits only: a pair of tables for the examples and the tests: an instance for src/yaml.pest:3, 4, 48. -/
def asciiTables : CharTables where
  letter c := (65 ≤ c.toNat && c.toNat ≤ 90) || (97 ≤ c.toNat && c.toNat ≤ 122)
  number c := 48 ≤ c.toNat && c.toNat ≤ 57
  letter_ascii := fun _ _ => rfl
  number_ascii := fun _ _ => rfl
  letter_not_white := by
    intro c h
    simp only [isWhitespace, Bool.or_eq_true, Bool.and_eq_true, beq_iff_eq, decide_eq_true_eq] at h
    simp only [Bool.or_eq_false_iff, Bool.and_eq_false_iff, decide_eq_false_iff_not]
    omega
  number_not_white := by
    intro c h
    simp only [isWhitespace, Bool.or_eq_true, Bool.and_eq_true, beq_iff_eq, decide_eq_true_eq] at h
    simp only [Bool.and_eq_false_iff, decide_eq_false_iff_not]
    omega

end YamlSubset
