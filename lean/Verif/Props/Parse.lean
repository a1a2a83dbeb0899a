import Verif.Props.Termination
import Verif.Lemmas.ParseGood
import Verif.Lemmas.KernelRfl

/-! # What parsing a document gives (C36-C39) -/

namespace YamlSubset

open Peg Spec

/-! ## the stack -/

/-- Height of the stack each rule of `yaml.pest` needs. -/
def yamlReq : Rule → Nat
  | .string_multiline_content | .string_multiline_folded | .string_multiline_literal
  | .block_array_element | .first_block_array_element | .block_array_data | .alternative_array
  | .block_array_aliased_yaml_value | .alternative_aliased_yaml_value | .yaml_value | .aliased_yaml_value
  | .hash_element | .first_hash_element | .hash_element_data | .alternative_hash_continuation | .alternative_hash => 1
  | _ => 0

theorem yamlStack (T : CharTables) (r : Rule) : stackCheck yamlReq ((yamlGrammar T).body r) (yamlReq r) = some (yamlReq r) := by
  cases r <;> rfl

/-- The grammar never reads an empty stack. -/
theorem yaml_eval_ne_panic (T : CharTables) (n : Nat) (s : Str) : eval (yamlGrammar T) n (.rule .yaml) s [] ≠ .panic :=
  (stackCheck_sound yamlReq (yamlStack T) n (.rule .yaml) s [] 0 0 rfl (Nat.le_refl _)).1

theorem yaml_eoi (T : CharTables) (r q : Rule) (h : q ∈ eoiRules ((yamlGrammar T).body r)) : (yamlGrammar T).body q = .eoi q := by
  cases r <;> simp [yamlGrammar, Rule.body, eoiRules, Expr.seqs, Expr.alts, Expr.plus, Rule.NEWLINE, Rule.ANY, Rule.SP] at h <;>
    (subst h; rfl)

/-- Everything there is to say about an outcome. -/
theorem parse_fine (T : CharTables) (input : Str) :
    parseYamlFile T input = .err ∨ Fine (BadBlockScalar T input) (ParsedDocument T) (parseYamlFile T input) := by
  unfold parseYamlFile
  cases h : eval (yamlGrammar T) (yamlFuel input) (.rule .yaml) input [] with
  | fail => exact .inl rfl
  | panic => exact absurd h (yaml_eval_ne_panic T _ _)
  | oof => exact absurd h (yaml_eval_ne_oof T _)
  | ok ts rest k =>
    right
    have hy : Yes (yamlGrammar T) (.rule .yaml) input [] ts rest k := ⟨_, h⟩
    have hd := hy.derived (I := Spaces) (req := yamlIndents) (known := pushesSpaces) (st := []) (st' := []) (inp := input)
      (yaml_pushes T) (yamlIndents_ok T) (yaml_eoi T) (by simp [pushed]) rfl (by simp [eoiRules]) ⟨[], rfl⟩ trivial
    obtain ⟨us, hus, rfl⟩ := yes_rule.1 hy
    have hw : wrap ((yamlGrammar T).kind .yaml) .yaml input rest us = [.node .yaml (consumed input rest) us] := rfl
    rw [hw] at hd ⊢
    have := good_tree (hd _ (List.mem_singleton.2 rfl))
    refine (good_fine this (by nofun) rfl : Fine (BadBlockScalar T input) (fun v => ∃ d, v = .doc d ∧ ParsedDocument T d) _).bind ?_
    rintro _ ⟨d, rfl, hd⟩
    exact .ok hd

/-! ## C36: parsing terminates -/

/-- **C36.** On every input the evaluation of the grammar finishes within a recursion depth linear in the length of the
input, and the result does not depend on the depth allowed. -/
theorem C36_parsing_terminates (T : CharTables) (input : Str) :
    parseYamlFile T input ≠ .oof ∧
      ∀ n, 40 * (input.length + 1) ≤ n → finishYaml (eval (yamlGrammar T) n (.rule .yaml) input []) = parseYamlFile T input := by
  constructor
  · rcases parse_fine T input with h | ⟨h, -⟩ | ⟨v, h, -⟩ <;> rw [h] <;> nofun
  · intro n hn
    have h1 := yaml_rule_terminates T .yaml input [] (40 * (input.length + 1)) (Nat.le_refl _)
    rw [parseYamlFile, eval_mono hn h1, eval_mono (m := yamlFuel input) (by unfold yamlFuel; omega) h1]

/-- A larger input where it matters: nested lists, comments, repetitions of blank lines. -/
example : parseYamlFile asciiTables c!"---\n\n\n- - a\n  - b\n\n# c\n\n" ≠ .oof := (C36_parsing_terminates _ _).1

/-- The same grammar with a repetition of something that may match the empty text would not terminate: the condition the proof
checks is not vacuous. -/
example : wellFormed yamlNul yamlDepth 40 (.star (.rule .commentnls)) = false := rfl

/-! ## C37: parsing does not panic -/

/-- **C37.** Parsing gives an error or a document, never a panic, for every text that does not contain a bad block scalar: a
`|` or `>` followed by a number that cannot be used as an indentation, or by lines of which one is too short for the bytes to be
cut from it. -/
theorem C37_parse_no_panic (T : CharTables) (input : Str) (h : ¬ BadBlockScalar T input) :
    parseYamlFile T input = .err ∨ ∃ d, parseYamlFile T input = .ok d := by
  rcases parse_fine T input with h' | ⟨-, h'⟩ | ⟨v, h', -⟩
  · exact .inl h'
  · exact absurd h' h
  · exact .inr ⟨v, h'⟩

/-- In particular for every text without `|` and `>`. -/
theorem C37_parse_no_panic_plain (T : CharTables) (input : Str) (h1 : '|' ∉ input) (h2 : '>' ∉ input) :
    parseYamlFile T input = .err ∨ ∃ d, parseYamlFile T input = .ok d := by
  refine C37_parse_no_panic T input ?_
  rintro ⟨pre, c, chomp, ind, rest, rfl, rfl | rfl, -⟩
  · exact h1 (by simp)
  · exact h2 (by simp)

example : '|' ∉ c!"---\na: 1\n" ∧ '>' ∉ c!"---\na: 1\n" ∧
    parseYamlFile asciiTables c!"---\na: 1\n" = .ok ⟨[], [.yaml (.hash [.element ⟨c!"a", none, .unquotedString c!"1"⟩])]⟩ :=
  ⟨by decide, by decide, by kernel_rfl⟩

theorem scalarLines_head {p : Str} {ls : List Str} {text : Str} (h : ScalarLines p ls text) : ∃ t, text = p ++ t := by
  induction h with
  | first => exact ⟨_, rfl⟩
  | more _ _ _ _ ih => obtain ⟨t, rfl⟩ := ih; exact ⟨_, by rw [List.append_assoc]⟩

/-- A block scalar of one line, or a line break with a character after it. -/
theorem scalarLines_two {p : Str} (hp : p ≠ []) {ls : List Str} {text : Str} (h : ScalarLines p ls text) :
    (∃ x, ls = [x]) ∨ ∃ u c d v, text = u ++ c :: d :: v ∧ (c = '\n' ∨ c = '\r') := by
  cases h with
  | first => exact .inl ⟨_, rfl⟩
  | @more ls t nl es x h hn he hx =>
    right
    have h1 : ∃ d v, es ++ (p ++ x) = d :: v := by
      cases h : es ++ (p ++ x) with
      | nil => simp [hp] at h
      | cons d v => exact ⟨d, v, rfl⟩
    obtain ⟨d, v, h1⟩ := h1
    rw [h1]
    rcases hn with rfl | rfl | rfl
    · exact ⟨t, '\n', d, v, rfl, .inl rfl⟩
    · exact ⟨t, '\r', '\n', d :: v, rfl, .inr rfl⟩
    · exact ⟨t, '\r', d, v, rfl, .inr rfl⟩

/-- A block scalar of one line without a number is never bad. -/
theorem one_line_fine (x : Str) : ¬ CannotCut (bytesCut [] [x]) x := by
  rintro ⟨-, h⟩
  exact h _ _ (List.takeWhile_append_dropWhile (p := isWhitespace) (l := x)).symm rfl

/-- The hypothesis is met by texts with block scalars. -/
example : ¬ BadBlockScalar asciiTables c!"|\n b\n" := by
  rintro ⟨pre, c, chomp, ind, rest, h, hc, hchomp, hind, -, hbad⟩
  have hpre : pre = [] := by
    rcases pre with _ | ⟨a, _ | ⟨b, _ | ⟨d, _ | ⟨e, _ | ⟨f, pre⟩⟩⟩⟩⟩ <;> simp at h <;> rcases hc with rfl | rfl <;> simp at h ⊢
  subst hpre
  have hch : chomp = [] := by
    rcases hchomp with rfl | rfl | rfl <;> simp at h ⊢
  subst hch
  have hin : ind = [] := by
    cases ind with
    | nil => rfl
    | cons a ind =>
      have h1 : a = '\n' := by simp at h; exact h.2.1.symm
      subst h1
      exact absurd (hind '\n' (by simp)) (by decide)
  subst hin
  rcases hbad with ⟨h1, -⟩ | ⟨blank, p, ls, text, post, rfl, ⟨l, hl, hls, rfl⟩, -, -, ⟨hp, hps⟩, hsl, x, hx, hcut⟩
  · exact h1 rfl
  · rcases scalarLines_two hp hsl with ⟨y, rfl⟩ | ⟨u, c', d, v, rfl, hc'⟩
    · simp only [List.mem_singleton] at hx
      subst hx
      exact one_line_fine x hcut
    · -- the blank lines end with the first line break, the scalar needs one more before its end
      simp only [List.nil_append] at h
      obtain ⟨a, l, rfl⟩ := List.exists_cons_of_ne_nil hl
      obtain ⟨sp, nl, rfl, -, hnl⟩ := hls a (by simp)
      have : ∃ w c₀ z, c!"|\n b\n" = w ++ c₀ :: (z ++ c' :: d :: v ++ post) ∧ (c₀ = '\n' ∨ c₀ = '\r') ∧ w ≠ [] := by
        rcases hnl with rfl | rfl | rfl
        · exact ⟨c :: sp, '\n', l.flatten ++ u, by rw [h]; simp, .inl rfl, by simp⟩
        · exact ⟨c :: sp ++ ['\r'], '\n', l.flatten ++ u, by rw [h]; simp, .inl rfl, by simp⟩
        · exact ⟨c :: sp, '\r', l.flatten ++ u, by rw [h]; simp, .inr rfl, by simp⟩
      obtain ⟨w, c₀, z, h, h0, -⟩ := this
      have hcount := congrArg (fun s : Str => s.count '\n') h
      have hr : '\r' ∉ c!"|\n b\n" := by decide
      have hc1 : c₀ = '\n' := by
        rcases h0 with h0 | rfl
        · exact h0
        · exact absurd (by rw [h]; simp) hr
      have hc2 : c' = '\n' := by
        rcases hc' with h0 | rfl
        · exact h0
        · exact absurd (by rw [h]; simp) hr
      subst hc1 hc2
      have hcnt : (w ++ '\n' :: (z ++ '\n' :: d :: v ++ post)).count '\n' = w.count '\n' + 1 + z.count '\n' + 1 + (d :: v ++ post).count '\n' := by
        simp [List.count_append, List.count_cons]; omega
      have h5 : (d :: v ++ post).count '\n' = 0 := by
        change _ = (w ++ '\n' :: (z ++ '\n' :: d :: v ++ post)).count '\n' at hcount
        rw [hcnt] at hcount
        have : (c!"|\n b\n").count '\n' = 2 := by decide
        omega
      have h6 : '\n' ∉ d :: v ++ post := List.count_eq_zero.1 h5
      apply h6
      have h7 : (w ++ '\n' :: (z ++ '\n' :: d :: v ++ post)).getLast? = (d :: v ++ post).getLast? := by
        have : w ++ '\n' :: (z ++ '\n' :: d :: v ++ post) = (w ++ '\n' :: (z ++ ['\n'])) ++ (d :: v ++ post) := by simp
        rw [this, List.getLast?_append]
        cases hq : (d :: v ++ post).getLast? with
        | none => exact absurd (List.getLast?_eq_none_iff.1 hq) (by simp)
        | some x => rfl
      have h8 : (d :: v ++ post).getLast? = some '\n' := by rw [← h7, ← h]; rfl
      exact List.mem_of_getLast? h8

/-- **C37, the tree consumer.** On every input, every tree the grammar produces is matched by an arm of the consumer. -/
theorem C37_consumer_complete (T : CharTables) (input : Str) : parseYamlFile T input ≠ .unmatched := by
  rcases parse_fine T input with h | ⟨h, -⟩ | ⟨v, h, -⟩ <;> rw [h] <;> nofun

/-- **C37, the stack.** On every input, `PEEK`, `POP` and `DROP` never find the stack empty. -/
theorem C37_stack_safe (T : CharTables) (n : Nat) (input : Str) : eval (yamlGrammar T) n (.rule .yaml) input [] ≠ .panic :=
  yaml_eval_ne_panic T n input

/-- Counterexample to C37: an indentation indicator of zero. -/
theorem C37_counterexample_zero : parseYamlFile asciiTables c!"---\na: |0\n  b\n" = .panic := by kernel_rfl

/-- Counterexample to C37: an indentation indicator larger than the indentation. -/
theorem C37_counterexample_large : parseYamlFile asciiTables c!"---\na: |9\n  b\n" = .panic := by kernel_rfl

/-- Counterexample to C37: no indicator, the second line less indented than the first. -/
theorem C37_counterexample_less_indented : parseYamlFile asciiTables c!"---\na: |\n    foo\n  b\n" = .panic := by kernel_rfl

/-- Counterexample to C37: an indentation indicator of more than 64 bits. -/
theorem C37_counterexample_huge : parseYamlFile asciiTables c!"---\na: |18446744073709551616\n  b\n" = .panic := by kernel_rfl

/-- Tables in which superscript two (U+00B2, general category No) is a number. -/
def superscriptTables : CharTables where
  letter := asciiTables.letter
  number c := asciiTables.number c || c.toNat == 0xB2
  letter_ascii := asciiTables.letter_ascii
  number_ascii := by
    intro c h
    rw [asciiTables.number_ascii c h]
    have : (c.toNat == 0xB2) = false := by simp; omega
    simp [this]
  letter_not_white := asciiTables.letter_not_white
  number_not_white := by
    intro c h
    rw [asciiTables.number_not_white c h]
    simp only [isWhitespace, Bool.or_eq_true, Bool.and_eq_true, beq_iff_eq, decide_eq_true_eq] at h
    simp
    omega

/-- Counterexample to C37: an indentation indicator that is a number but not ASCII. -/
theorem C37_counterexample_not_ascii : parseYamlFile superscriptTables c!"---\na: |²\n  b\n" = .panic := by kernel_rfl

/-! ## C38: one root collection -/

/-- **C38.** A parsed document contains exactly one YAML item, which is a block mapping, a block sequence or a flow sequence;
all other items are comments. -/
theorem C38_one_root {T : CharTables} {input : Str} {d : Document} (h : parseYamlFile T input = .ok d) :
    ∃ (pre post : List Str) (root : Yaml),
      d.items = pre.map .comment ++ [.yaml root] ++ post.map .comment ∧ RootCollection root := by
  rcases parse_fine T input with h' | ⟨h', -⟩ | ⟨v, h', hv⟩
  · rw [h] at h'; cases h'
  · rw [h] at h'; cases h'
  · rw [h] at h'
    cases h'
    obtain ⟨pre, post, root, h1, -, h2, -⟩ := hv.items
    exact ⟨pre, post, root, h1, h2⟩

example : parseYamlFile asciiTables c!"# x\n---\n# y\n- 1\n- 2\n# z\n" =
    .ok ⟨[c!" x"], [.comment c!" y", .yaml (.array [.element ⟨none, .unquotedString c!"1"⟩, .element ⟨none, .unquotedString c!"2"⟩]), .comment c!" z"]⟩ := by
  kernel_rfl

/-! ## C39: parsed trees are well formed -/

/-- **C39.** Parsed documents are well formed in the sense of `Spec.ParsedDocument`: keys, anchor names, comments, plain and
quoted scalars are of the expected form, block collections are not empty, flow collections contain only flow values, and
inline comments come directly after an element. -/
theorem C39_parsed_well_formed {T : CharTables} {input : Str} {d : Document} (h : parseYamlFile T input = .ok d) :
    ParsedDocument T d := by
  rcases parse_fine T input with h' | ⟨h', -⟩ | ⟨v, h', hv⟩
  · rw [h] at h'; cases h'
  · rw [h] at h'; cases h'
  · rw [h] at h'; cases h'; exact hv

/-- A document with every kind of node. -/
example : ParsedDocument asciiTables
    ⟨[], [.yaml (.hash [.element ⟨c!"a b", some c!"x", .inlineArray [.unquotedString c!"1", .anchor c!"y"]⟩, .inlineComment c!" c",
      .element ⟨c!"d", none, .literalString [c!"l", c!"m"] .strip⟩])]⟩ :=
  C39_parsed_well_formed (input := c!"---\na b: &x [1, *y] # c\nd: |-\n  l\n  m\n") (by kernel_rfl)

/-- Not every tree is well formed. -/
example : ¬ ParsedDocument asciiTables ⟨[], [.yaml (.hash [.comment c!"a"])]⟩ := by
  rintro ⟨-, pre, post, root, h, -, -, hv⟩
  have : root = .hash [.comment c!"a"] := by
    cases pre with
    | nil => simp at h; exact h.1.symm
    | cons p pre => simp at h
  subst this
  cases hv with
  | hash he => obtain ⟨e, he⟩ := he; simp at he

end YamlSubset
