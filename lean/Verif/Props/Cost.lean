import Verif.Lemmas.Cost
import Verif.Lemmas.ReadDocument
import Verif.Props.RoundTrip
import Verif.Lemmas.KernelRfl

/-! # How much work parsing is (C61) -/

namespace YamlSubset

open Peg Spec

variable {T : CharTables}

/-- One-element sequences in each other, `n` deep, around a plain scalar. -/
def nestedSeqs : Nat → Yaml
  | 0 => .unquotedString ['x']
  | n + 1 => .array [.element ⟨none, nestedSeqs n⟩]

/-- Their text: `- - - x`. -/
def nestedDashes : Nat → Str
  | 0 => ['x']
  | n + 1 => '-' :: ' ' :: nestedDashes n

theorem nestedDashes_length (n : Nat) : (nestedDashes n).length = 2 * n + 1 := by
  induction n with
  | zero => rfl
  | succ n ih => simp [nestedDashes, ih]; omega

theorem oneLine_x : OneLine T (.unquotedString ['x']) := by
  have hx : NameChar T 'x' := .inl (by rw [T.letter_ascii 'x' (by decide)]; decide)
  refine .plain ⟨by simp, ⟨by decide, by decide⟩, by simp, ?_, by simp, by simp; decide, ?_, ?_, ?_⟩
  · intro a b h
    have := congrArg List.length h
    simp at this; omega
  · intro c d t h; simp at h
  · intro t h; simp at h
  · intro c k t h
    have := congrArg List.length h
    have h2 := congrArg List.head? h
    simp at this

theorem reads_nested_lead (n : Nat) (k : List Str) :
    Reads T (leadExpr .dash) (' ' :: nestedDashes n) k [(.block_array_aliased_yaml_value, .aliased ⟨none, nestedSeqs n⟩)] [] k := by
  induction n generalizing k with
  | zero =>
    obtain ⟨r', hl, hr⟩ := reads_oneLine (T := T) (hold := .dash) (s := 0) (a := none) (r := []) (k := k) nofun oneLine_x (.inl (.inl rfl))
    rw [hl.lineEnd (.inl rfl)] at hr
    exact hr
  | succ n ih =>
    obtain ⟨l, hl, h1⟩ := reads_element (ih k) (.inl rfl)
    obtain ⟨l', hl', h1'⟩ := reads_element (ih (indent 0 :: k)) (.inl rfl)
    refine reads_dash_coll (bare_dash _).black (by simp [nestedDashes]) (.alt (not_alternative_hash_dash k) (.rule (.seqR (reads_first_element hl h1) (.seqL (not_blanknl_nil k))))) ?_
    have h2 := elementsAt_last hl' h1' (by simp [NotSp]) fun q hq => not_array_data_end (cs := []) (by simp) k hq
    obtain ⟨q, hq, -, -, -, -, h3⟩ := h2.array (.inl rfl)
    simp only [indent, List.replicate_zero, List.nil_append, List.cons.injEq, true_and] at hq
    subst hq
    exact h3

theorem _root_.YamlSubset.Peg.AtLeast.seqReads {a b : Expr Rule} {s s₁ : Str} {k k₁ : List Str} {l} {c : Nat} (ha : Reads T a s k l s₁ k₁)
    (h : AtLeast (yamlGrammar T) b s₁ k₁ c) : AtLeast (yamlGrammar T) (.seq a b) s k c := by
  obtain ⟨ts, h1, -⟩ := ha
  exact .seqR h1 h

theorem atLeast_element {n c : Nat} {k : List Str} (h : AtLeast (yamlGrammar T) (.rule .block_array_aliased_yaml_value) (nestedDashes n) k c) :
    AtLeast (yamlGrammar T) (.rule .first_block_array_element) (nestedDashes (n + 1)) k c := by
  have hs : NotSp (nestedDashes n) := by cases n <;> simp [nestedDashes, NotSp] <;> decide
  exact .rule (.seqL (.rule (.seqReads (.lit '-' _ k) (.seqReads (reads_sp1 hs k) h))))

theorem not_hash_dash {x : Str} (k) : Not T (.rule .hash) ('-' :: x) k := by
  simpa [linesNl, indent] using not_hash_lines (T := T) (s := 0) (cs := []) (tail := x) (by simp) k

theorem atLeast_block_array {n c : Nat} {k : List Str} (h : AtLeast (yamlGrammar T) (.rule .block_array_aliased_yaml_value) (nestedDashes n) (indent 0 :: k) c) :
    AtLeast (yamlGrammar T) (.rule .array) (nestedDashes (n + 1)) k c := by
  refine .rule (.altR (not_inline_array (by simp [nestedDashes]) k) (.rule ?_))
  have h1 : Reads T (.rule .commentnls) (nestedDashes (n + 1)) k [(.commentnls, .strs [])] (nestedDashes (n + 1)) k :=
    reads_commentnls (m := 0) (n := 0) (cs := []) (by simp) (bare_dash _) k
  have h2 : Reads T (.rule .blank) (nestedDashes (n + 1)) k [] (nestedDashes (n + 1)) k := reads_blank_none (n := 0) (bare_dash _).black k
  have h3 : Reads T (.push (.star Rule.SP)) (nestedDashes (n + 1)) k [] (nestedDashes (n + 1)) (indent 0 :: k) :=
    .push (t := indent 0) (reads_sps (n := 0) (bare_dash _).notSp k)
  exact .seqReads h1 (.seqReads h2 (.seqReads h3 (.seqL (atLeast_element h))))

/-- Each level is parsed twice. -/
theorem atLeast_nested (n : Nat) (k : List Str) : AtLeast (yamlGrammar T) (.rule .block_array_aliased_yaml_value) (nestedDashes n) k (2 ^ n) := by
  induction n generalizing k with
  | zero => exact .one _ _ _ _
  | succ n ih =>
    obtain ⟨l, hl, h1⟩ := reads_element (reads_nested_lead (T := T) n k) (.inl rfl)
    have hal : ∀ e, Not T (.seq (.rule .alias) e) (nestedDashes (n + 1)) k := fun e => .seqL (noAlias_head (by simp [nestedDashes]) k)
    have hno : Not T (.rule .alternative_aliased_yaml_value) (nestedDashes (n + 1)) k :=
      .rule (.seqR (.optNone (hal _)) (.alt (not_alternative_hash_dash k) (.rule (.seqR (reads_first_element hl h1) (.seqL (not_blanknl_nil k))))))
    have hp : 2 ^ (n + 1) = 2 ^ n + 2 ^ n := by omega
    rw [hp]
    refine .rule (.alt hno (.rule (.seqReads (.optNone (hal _)) (.altR (not_alternative_hash_dash k) (.rule (.seqL (atLeast_element (ih k)))))))
      (.rule (.seqReads (.optNone (hal _)) (.rule (.altR (not_hash_dash k) (.altL (atLeast_block_array (ih _))))))))

theorem reads_head {x : Str} (hx : Bare x) (k) : Reads T (.rule .leading_comments) ('-' :: '-' :: '-' :: '\n' :: x) k [(.leading_comments, .strs [])] ('-' :: '-' :: '-' :: '\n' :: x) k ∧
    Reads T (.rule .blanknl) ('\n' :: x) k [] x k ∧ Reads T (.rule .commentnls) x k [(.commentnls, .strs [])] x k := by
  refine ⟨reads_leading (cs := []) (by simp) k, ?_, reads_commentnls (m := 0) (n := 0) (cs := []) (by simp) hx k⟩
  exact reads_blanknl (n := 0) hx.black k

theorem atLeast_yaml {x : Str} {c : Nat} (hx : Bare x) (h : AtLeast (yamlGrammar T) (.rule .document) x [] c) : c ≤ parseSteps T (c!"---\n" ++ x) := by
  obtain ⟨h1, h2, h3⟩ := reads_head (T := T) hx []
  exact parseSteps_ge (.rule (.seqReads (.soi _ _) (.seqReads h1 (.seqReads (.str c!"---" _ _) (.seqReads h2 (.seqReads h3 (.seqL h)))))))

theorem deep_yaml {x : Str} {c : Nat} (hx : Bare x) (h : Deep (yamlGrammar T) (.rule .document) x [] c) : c ≤ parseDepth T (c!"---\n" ++ x) := by
  obtain ⟨⟨_, h1, -⟩, ⟨_, h2, -⟩, ⟨_, h3, -⟩⟩ := reads_head (T := T) hx []
  obtain ⟨_, h0, -⟩ := Reads.soi (T := T) (c!"---\n" ++ x) []
  obtain ⟨_, h4, -⟩ := Reads.str (T := T) c!"---" ('\n' :: x) []
  exact parseDepth_ge ((Deep.rule (.seqR h0 (.seqR h1 (.seqR h4 (.seqR h2 (.seqR h3 (.seqL h))))))).less (Nat.le_succ c))

theorem nested_readable (n : Nat) (p : Place) (hp : p.next = .none) : Readable T p .dash false (nestedSeqs n) := by
  induction n generalizing p with
  | zero => exact .oneLine oneLine_x
  | succ n ih => exact .seqOne (.inl rfl) (by rw [hp]; simp) (by simp) (ih _ hp)

/-- The document of nested sequences. -/
def nestedDocument (n : Nat) : Document := ⟨[], [.yaml (nestedSeqs (n + 1))]⟩

theorem nestedDocument_readable (n : Nat) : ReadableDocument T (nestedDocument n) :=
  ⟨by simp [nestedDocument], [], [], nestedSeqs (n + 1), by simp [nestedDocument], by simp, .array (.last (by simp) (nested_readable n _ rfl))⟩

theorem nestedSeqs_format (n ind : Nat) : (nestedSeqs n).format ind (some .array) = ' ' :: nestedDashes n := by
  induction n generalizing ind with
  | zero => rfl
  | succ n ih => simp [nestedSeqs, Yaml.format, formatArray, ih, nestedDashes]

theorem bare_bracket (t : Str) : Bare ('[' :: t) := by simp [Bare]; decide

/-- **C61** Parsing takes time exponential in the size of the text in the worst case. A sequence with one element on the line of a
dash is parsed twice, so sequences nested `n` deep, whose text `- - - x` has `2 * n + 7` characters, take more than `2 ^ n` steps. -/
theorem C61_exponential (T : CharTables) (n : Nat) :
    (nestedDocument n).format = c!"---\n- " ++ nestedDashes n ∧
    (nestedDocument n).format.length = 2 * n + 7 ∧
    parseYamlFile T (nestedDocument n).format = .ok (nestedDocument n) ∧
    2 ^ n ≤ parseSteps T (nestedDocument n).format := by
  have hf : (nestedDocument n).format = c!"---\n- " ++ nestedDashes n := by
    simp [nestedDocument, nestedSeqs, Document.format, DocumentData.format, Yaml.format, formatArray, nestedSeqs_format, indent]
  refine ⟨hf, by simp [hf, nestedDashes_length], C41_formatted_documents_parse T _ (nestedDocument_readable n), ?_⟩
  rw [hf]
  exact atLeast_yaml (x := nestedDashes (n + 1)) (bare_dash _) (.rule (.altR (not_hash_dash []) (atLeast_block_array (atLeast_nested n _))))

/-- The number of steps is never more than exponential in the size of the text. -/
theorem C61_at_most_exponential (T : CharTables) (s : Str) : parseSteps T s < 2 ^ (40 * (s.length + 1)) := parseSteps_lt T s

theorem deep_brackets (n : Nat) (t : Str) (k : List Str) : Deep (yamlGrammar T) (.rule .inline_array) (List.replicate n '[' ++ t) k n := by
  induction n generalizing k with
  | zero => exact .zero _ _ _ _
  | succ n ih =>
    rw [List.replicate_succ, List.cons_append]
    cases n with
    | zero => exact .rule (.zero _ _ _ _)
    | succ n =>
      have hb : Bare (List.replicate (n + 1) '[' ++ t) := by rw [List.replicate_succ]; exact bare_bracket _
      obtain ⟨_, h0, -⟩ := Reads.lit (T := T) '[' (List.replicate (n + 1) '[' ++ t) k
      obtain ⟨_, h1, -⟩ := reads_spaces (T := T) (n := 0) hb.spaces k
      exact .rule (.seqR h0 (.seqL (.opt (.seqR h1 (.seqL ((Deep.rule (.altR (not_anchor_head (by simp [List.replicate_succ]) k) (.altL (ih k)))).less (Nat.le_succ _)))))))

/-- The nesting of the parser's rules grows with the nesting of the text: `n` brackets need at least `n` rules running at the same
time, whatever follows them. So no fixed call stack is enough, not even to reject a text. -/
theorem C61_depth (T : CharTables) (n : Nat) (t : Str) : n ≤ parseDepth T (c!"---\n" ++ List.replicate n '[' ++ t) := by
  cases n with
  | zero => exact Nat.zero_le _
  | succ n =>
    have hb : Bare (List.replicate (n + 1) '[' ++ t) := by rw [List.replicate_succ]; exact bare_bracket _
    rw [List.append_assoc]
    have hh : Not T (.rule .hash) (List.replicate (n + 1) '[' ++ t) [] := by
      refine .rule (.seqR (.optNone (not_newline hb.black.notNl)) (.seqR (reads_commentnls_nil (n := 0) hb.notSp hb.notHash _)
        (.seqR (reads_blank_none (n := 0) hb.black _) (.seqR (.push (t := []) (reads_sps_nil hb.notSp _))
        (.seqL (not_first_hash_element (not_hash_element_head ?_ _)))))))
      simpa [NotName, List.replicate_succ] using not_nameChar (T := T) (c := '[') (by decide)
    exact (deep_yaml hb ((Deep.rule (.altR hh (.rule (.altL (deep_brackets (n + 1) t []))))).less (by omega)))

/-- It is never more than linear in the size of the text. -/
theorem C61_depth_at_most_linear (T : CharTables) (s : Str) : parseDepth T s ≤ 40 * (s.length + 1) := parseDepth_le T s

/-- The measures are those of the whole run: more fuel does not change them. -/
theorem C61_measures (T : CharTables) (s : Str) (m : Nat) (h : yamlFuel s ≤ m) :
    steps (yamlGrammar T) m (.rule .yaml) s [] = parseSteps T s ∧ depth (yamlGrammar T) m (.rule .yaml) s [] = parseDepth T s :=
  ⟨steps_stable h _ _ _ (yaml_eval_ne_oof T s), depth_stable h _ _ _ (yaml_eval_ne_oof T s)⟩

/-- Thirteen characters, nearly four thousand steps; the measured numbers double with every level. -/
theorem C61_example :
    (nestedDocument 3).format = c!"---\n- - - - x" ∧ parseSteps asciiTables c!"---\n- - x" = 1001 ∧
    parseSteps asciiTables c!"---\n- - - x" = 1957 ∧ parseSteps asciiTables c!"---\n- - - - x" = 3869 ∧
    parseDepth asciiTables c!"---\n[[[[x]]]]" = parseDepth asciiTables c!"---\n[[[x]]]" + 2 := by
  refine ⟨by kernel_rfl, by decide +kernel, by decide +kernel, by decide +kernel, by decide +kernel⟩

end YamlSubset
