import Verif.Lemmas.Peg
import Verif.Model.Consume
import Verif.Model.Path

/-! # Parsing terminates (C36)

The evaluator of the grammars is fuelled. Here: fuel linear in the length of the input suffices, for every
input. The reason is that no rule of the two grammars can reach itself without consuming input, and no
repetition repeats something that can consume nothing; both facts are checked by the tables below, whose
consistency with the grammars is proved. -/

namespace YamlSubset

open Peg

/-- Rules of `yaml.pest` that may succeed without consuming input. -/
def yamlNul : Rule → Bool
  | .EOI | .spaces | .double_quote_content | .single_quote_content | .block_string
  | .block_empty_lines | .string_multiline_trailing | .string_multiline_indent | .comment_text
  | .commentnls | .leading_comments | .blank => true
  | _ => false

/-- Bound on the depth of the evaluation of each rule of `yaml.pest` before it consumes input. -/
def yamlDepth : Rule → Nat
  | .EOI | .single_quote | .removable_newline => 2
  | .escaped_double_quote_char | .single_quote_char | .blank_lines | .string_multiline_folded
  | .string_multiline_literal | .string_block_chomping | .anchor | .alias | .inline_array
  | .block_array_element | .inline_hash => 3
  | .double_quoted_string | .single_quoted_string | .string_multiline_indent | .comment_base => 4
  | .space | .hash_key | .alias_name | .block_empty_lines | .string_multiline_content_part
  | .first_block_array_element | .comment => 5
  | .disallowed_unquoted_string_elements | .single_quote_text | .string_multiline_trailing
  | .commentnl => 6
  | .spaces | .escaped_double_quote_char_value | .double_quote_text | .alternative_array
  | .hash_element | .inline_hash_element | .comment_text | .blank | .blanknl => 7
  | .block_string | .commentnls => 8
  | .unquoted_string_elements | .string_multiline_content | .first_hash_element | .hash_element_data
  | .alternative_hash_continuation => 9
  | .escaped_single_quote_char | .block_array_data | .block_array => 10
  | .double_quote_without_escape | .alternative_hash | .leading_comments => 11
  | .single_quote_content | .array => 12
  | .disallowed_unquoted_inline_string_start_elements | .double_quote_content => 13
  | .disallowed_unquoted_inline_string_elements | .disallowed_unquoted_string_start_elements
  | .alternative_aliased_yaml_value | .yaml => 14
  | .hash => 15
  | .unquoted_inline_string_start_elements => 16
  | .unquoted_inline_string_elements | .unquoted_string_start_elements | .document => 17
  | .unquoted_inline_string => 18
  | .unquoted_string => 19
  | .inline_array_string => 20
  | .string => 21
  | .inline_array_value => 24
  | .inline_value => 25
  | .yaml_value => 30
  | .aliased_yaml_value => 32
  | .block_array_aliased_yaml_value => 34

/-- Rules of `path.pest` that may succeed without consuming input. -/
def pathNul : PRule → Bool
  | .EOI | .root_key | .root | .final_path => true
  | _ => false

/-- Bound on the depth of the evaluation of each rule of `path.pest` before it consumes input. -/
def pathDepth : PRule → Nat
  | .EOI | .WHITESPACE | .index_all | .root_key => 2
  | .index_number | .index => 3
  | .part => 5
  | .key_items | .field | .value | .root => 7
  | .pure_key | .condition => 9
  | .key => 11
  | .path => 13
  | .final_path => 16

theorem yamlNul_ok (T : CharTables) (r : Rule) (h : nullE yamlNul ((yamlGrammar T).body r) = true) : yamlNul r = true := by
  cases r <;> first | rfl | (exact absurd h (by simp [yamlGrammar, Rule.body, Expr.seqs, Expr.alts, Expr.plus, nullE, yamlNul, Rule.NEWLINE, Rule.ANY, Rule.SP]))

theorem yamlDepth_ok (T : CharTables) (r : Rule) : leftDepth yamlNul yamlDepth ((yamlGrammar T).body r) + 1 ≤ yamlDepth r := by
  cases r <;> exact Nat.le_refl _

theorem yamlWellFormed (T : CharTables) (r : Rule) : wellFormed yamlNul yamlDepth 40 ((yamlGrammar T).body r) = true := by
  cases r <;> rfl

theorem pathNul_ok (r : PRule) (h : nullE pathNul (pathGrammar.body r) = true) : pathNul r = true := by
  cases r <;> first | rfl | (exact absurd h (by decide))

theorem pathDepth_ok (r : PRule) : leftDepth pathNul pathDepth (pathGrammar.body r) + 1 ≤ pathDepth r := by
  cases r <;> exact Nat.le_refl _

theorem pathWellFormed (r : PRule) : wellFormed pathNul pathDepth 20 (pathGrammar.body r) = true := by
  cases r <;> rfl

/-- Running any rule of `yaml.pest` needs a depth of at most `40 * (length + 1)`. -/
theorem yaml_rule_terminates (T : CharTables) (r : Rule) (s : Str) (k : List Str) (n : Nat) (hn : 40 * (s.length + 1) ≤ n) :
    eval (yamlGrammar T) n (.rule r) s k ≠ .oof := by
  apply eval_terminates yamlNul yamlDepth 40 (yamlNul_ok T) (yamlDepth_ok T) (yamlWellFormed T)
  · cases r <;> rfl
  · have : leftDepth yamlNul yamlDepth (.rule r) ≤ 40 := by cases r <;> decide
    omega

/-- Running any rule of `path.pest` needs a depth of at most `20 * (length + 1)`. -/
theorem path_rule_terminates (r : PRule) (s : Str) (k : List Str) (n : Nat) (hn : 20 * (s.length + 1) ≤ n) :
    eval pathGrammar n (.rule r) s k ≠ .oof := by
  apply eval_terminates pathNul pathDepth 20 pathNul_ok pathDepth_ok pathWellFormed
  · cases r <;> rfl
  · have : leftDepth pathNul pathDepth (.rule r) ≤ 20 := by cases r <;> decide
    omega

theorem yaml_eval_ne_oof (T : CharTables) (s : Str) : eval (yamlGrammar T) (yamlFuel s) (.rule .yaml) s [] ≠ .oof :=
  yaml_rule_terminates T .yaml s [] _ (by unfold yamlFuel; omega)

theorem path_eval_ne_oof (s : Str) : eval pathGrammar (pathFuel s) (.rule .final_path) s [] ≠ .oof :=
  path_rule_terminates .final_path s [] _ (by unfold pathFuel; omega)

theorem Out.bind_ne_oof {α β : Type} {x : Out α} {f : α → Out β} (hx : x ≠ .oof) (hf : ∀ a, f a ≠ .oof) : x.bind f ≠ .oof := by
  cases x with
  | ok a => exact hf a
  | oof => exact absurd rfl hx
  | _ => intro h; cases h

end YamlSubset
