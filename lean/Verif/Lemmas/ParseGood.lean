import Verif.Lemmas.PlainPlace

/-! # Every parse tree is consumed as expected -/

namespace YamlSubset

open Peg Spec

variable {T : CharTables} {B : Prop}

/-- Find a child by its result. -/
macro "mem_kids" : tactic => `(tactic| repeat' first
  | exact List.mem_cons_self | apply List.mem_cons_of_mem | apply List.mem_append_right)

/-- The rules of the children of a node. -/
def kidsOf (r : Rule) (l : List Rule) : Prop :=
  match r with
  | .double_quote_without_escape =>
    l = [.escaped_double_quote_char_value] ∨ l = [.blank_lines] ∨ l = [.removable_newline] ∨ l = [.double_quote_text]
  | .double_quote_content => ∀ x ∈ l, x = .double_quote_without_escape
  | .double_quoted_string => l = [.double_quote_content]
  | .escaped_single_quote_char =>
    l = [.single_quote] ∨ l = [.blank_lines] ∨ l = [.removable_newline] ∨ l = [.single_quote_text]
  | .single_quote_content => ∀ x ∈ l, x = .escaped_single_quote_char
  | .single_quoted_string => l = [.single_quote_content]
  | .string => l = [.unquoted_string] ∨ l = [.double_quoted_string] ∨ l = [.single_quoted_string]
  | .inline_array_string => l = [.unquoted_inline_string] ∨ l = [.double_quoted_string] ∨ l = [.single_quoted_string]
  | .string_multiline_content_part => l = [.block_empty_lines, .block_string]
  | .string_multiline_content => ∃ l', (∀ x ∈ l', x = .string_multiline_content_part) ∧
      l = .block_empty_lines :: .block_string :: (l' ++ [.string_multiline_trailing])
  | .string_multiline_folded | .string_multiline_literal =>
    l = [.string_block_chomping, .string_multiline_indent, .string_multiline_content] ∨
      l = [.string_multiline_indent, .string_multiline_content]
  | .anchor | .alias => l = [.alias_name]
  | .inline_value => l = [.anchor] ∨ l = [.inline_array] ∨ l = [.inline_hash] ∨ l = [.string]
  | .inline_array_value => l = [.anchor] ∨ l = [.inline_array] ∨ l = [.inline_hash] ∨ l = [.inline_array_string]
  | .inline_array => ∀ x ∈ l, x = .inline_array_value
  | .block_array_element => l = [.block_array_aliased_yaml_value]
  | .first_block_array_element => l = [.block_array_element, .comment] ∨ l = [.block_array_element]
  | .block_array_data => l = [.commentnls, .block_array_element, .comment] ∨ l = [.commentnls, .block_array_element]
  | .block_array => ∃ l', (∀ x ∈ l', x = .block_array_data) ∧
      l = .commentnls :: .first_block_array_element :: (l' ++ [.commentnls])
  | .array => l = [.inline_array] ∨ l = [.block_array]
  | .alternative_array => ∃ l', (∀ x ∈ l', x = .block_array_data) ∧
      l = .first_block_array_element :: .first_block_array_element :: (l' ++ [.commentnls])
  | .block_array_aliased_yaml_value => l = [.alternative_aliased_yaml_value] ∨ l = [.aliased_yaml_value]
  | .alternative_aliased_yaml_value => (l = [.alias, .alternative_hash] ∨ l = [.alias, .alternative_array]) ∨
      l = [.alternative_hash] ∨ l = [.alternative_array]
  | .yaml_value => l = [.hash] ∨ l = [.array] ∨ l = [.string_multiline_literal] ∨ l = [.string_multiline_folded] ∨
      l = [.inline_value]
  | .aliased_yaml_value => l = [.alias, .yaml_value] ∨ l = [.yaml_value]
  | .hash_element => l = [.hash_key, .block_array_aliased_yaml_value]
  | .first_hash_element => l = [.hash_element, .comment] ∨ l = [.hash_element]
  | .hash_element_data => l = [.commentnls, .hash_element, .comment] ∨ l = [.commentnls, .hash_element]
  | .hash => ∃ l', (∀ x ∈ l', x = .hash_element_data) ∧ l = .commentnls :: .first_hash_element :: (l' ++ [.commentnls])
  | .alternative_hash_continuation => ∃ l', (∀ x ∈ l', x = .hash_element_data) ∧ l = .commentnls :: .first_hash_element :: l'
  | .alternative_hash => l = [.first_hash_element, .alternative_hash_continuation, .commentnls] ∨
      l = [.first_hash_element, .commentnls]
  | .inline_hash_element => l = [.hash_key, .inline_array_value]
  | .inline_hash => ∀ x ∈ l, x = .inline_hash_element
  | .commentnl | .comment => l = [.comment_text]
  | .commentnls | .leading_comments => ∀ x ∈ l, x = .commentnl
  | .document => l = [.hash] ∨ l = [.array]
  | .yaml => ∃ l', (∀ x ∈ l', x = .comment) ∧ l = .leading_comments :: .commentnls :: .document :: (l' ++ [.EOI])
  | _ => True

theorem kidsOf_ok (r : Rule) (l : List Rule) (hl : lang (yamlGrammar T).kind silentKids ((yamlGrammar T).body r) l) : kidsOf r l := by
  cases r
  all_goals try exact trivial
  all_goals
    simp [yamlGrammar, Rule.body, lang, Rule.kind, silentKids, Expr.seqs, Expr.alts, Expr.plus, Rule.NEWLINE, Rule.ANY, Rule.SP,
        star_nil, star_single] at hl
  all_goals first
    | exact hl
    | (obtain ⟨_, ⟨_, ⟨l', h, rfl⟩, rfl⟩, rfl⟩ := hl; exact ⟨l', h, rfl⟩)
    | (obtain ⟨_, ⟨l', h, rfl⟩, rfl⟩ := hl; exact ⟨l', h, rfl⟩)
    | (obtain ⟨_, ⟨_, ⟨_, ⟨l', h, rfl⟩, rfl⟩, rfl⟩, rfl⟩ := hl; exact ⟨l', h, rfl⟩)
    | (rcases hl with ⟨l', h, rfl⟩ | rfl
       · intro x hx
         rcases List.mem_cons.1 hx with rfl | hx
         · rfl
         · exact h x hx
       · intro x hx; cases hx)

theorem good_fine {r : Rule} {o : Out Val} {P : Val → Prop} (h : Good T B r o) (hr : r ≠ .string_multiline_indent)
    (hP : result T r = some P) : Fine B P o := by
  unfold Good at h
  split at h
  · exact absurd rfl hr
  · rw [hP] at h; exact h

/-- All children of one kind. -/
theorem kids_good {r : Rule} {ks : Kids} {P : Val → Prop} (hk : ∀ x ∈ ks, Good T B x.1 x.2) (hr : ∀ x ∈ ks.map Prod.fst, x = r)
    (hi : r ≠ .string_multiline_indent) (hP : result T r = some P) : ∀ x ∈ ks, Fine B P x.2 := by
  intro x hx
  have h1 := hr x.1 (List.mem_map.2 ⟨x, hx, rfl⟩)
  exact good_fine (h1 ▸ hk x hx) hi hP

theorem replicate_lines (n : Nat) : ∀ s ∈ List.replicate n ([] : Str), LineText s := by
  intro s hs
  obtain ⟨-, rfl⟩ := List.mem_replicate.1 hs
  simp [LineText]

theorem linesCount_newlines (n : Nat) : linesCount (List.replicate (n + 2) '\n') = n + 2 := by
  have h : endsWithChar (List.replicate (n + 2) '\n') '\n' = true := by
    simp [endsWithChar, List.getLast?_replicate]
  simp [linesCount, h]

theorem good_multiline_true {mk : List Str → BlockChomping → Yaml}
    (hmk : ∀ ls c, (∀ l ∈ ls, LineText l) → ls ≠ [] → ParsedValue T (mk ls c)) {ks : Kids}
    (hl : ks.map Prod.fst = [.string_block_chomping, .string_multiline_indent, .string_multiline_content] ∨
      ks.map Prod.fst = [.string_multiline_indent, .string_multiline_content])
    (hk : ∀ x ∈ ks, Good T True x.1 x.2) : Fine True (IsYaml (ParsedValue T)) (Consume.stringMultiline mk ks) := by
  have hi : ∀ o, Good T True .string_multiline_indent o → Fine True (fun v => ∃ n, v = .optNat n) o := by
    rintro o (h | ⟨n, h⟩)
    · exact .inl ⟨h, trivial⟩
    · exact .inr ⟨_, h, n, rfl⟩
  rcases hl with hl | hl
  · have hk0 := kids_cons hl; clear hl; obtain ⟨o₁, _, rfl, hl⟩ := hk0
    have hk0 := kids_cons hl; clear hl; obtain ⟨o₂, _, rfl, hl⟩ := hk0
    have hk0 := kids_cons hl; clear hl; obtain ⟨o₃, _, rfl, hl⟩ := hk0
    obtain rfl := List.map_eq_nil_iff.1 hl
    simp only [Consume.stringMultiline]
    refine (good_fine (hk (_, o₁) (by mem_kids)) (by nofun) rfl : Fine True (fun v => ∃ c, v = .chomping c) o₁).bind ?_
    rintro _ ⟨c, rfl⟩
    refine (hi o₂ (hk (_, o₂) (by mem_kids))).bind ?_
    rintro _ ⟨n, rfl⟩
    refine (good_fine (hk (_, o₃) (by mem_kids)) (by nofun) rfl : Fine True (IsLines fun l => l ≠ []) o₃).bind ?_
    rintro _ ⟨ls, rfl, h1, h2⟩
    exact (clean_fine trivial h1 h2).bind fun ls hls => .ok ⟨_, rfl, hmk ls c hls.1 hls.2⟩
  · have hk0 := kids_cons hl; clear hl; obtain ⟨o₂, _, rfl, hl⟩ := hk0
    have hk0 := kids_cons hl; clear hl; obtain ⟨o₃, _, rfl, hl⟩ := hk0
    obtain rfl := List.map_eq_nil_iff.1 hl
    simp only [Consume.stringMultiline]
    refine (hi o₂ (hk (_, o₂) (by mem_kids))).bind ?_
    rintro _ ⟨n, rfl⟩
    refine (good_fine (hk (_, o₃) (by mem_kids)) (by nofun) rfl : Fine True (IsLines fun l => l ≠ []) o₃).bind ?_
    rintro _ ⟨ls, rfl, h1, h2⟩
    exact (clean_fine trivial h1 h2).bind fun ls hls => .ok ⟨_, rfl, hmk ls .clip hls.1 hls.2⟩

theorem Good.weaken {B' : Prop} (hbb : B → B') {r : Rule} {o : Out Val} (h : Good T B r o) : Good T B' r o := by
  unfold Good at h ⊢
  split at h
  · exact h
  · split at h
    · rcases h with ⟨h, hb⟩ | h
      · exact .inl ⟨h, hbb hb⟩
      · exact .inr h
    · trivial

theorem good_multiline {mk : List Str → BlockChomping → Yaml} {ks : Kids} (hb : Consume.stringMultiline mk ks = .panic → B)
    (hmk : ∀ ls c, (∀ l ∈ ls, LineText l) → ls ≠ [] → ParsedValue T (mk ls c))
    (hl : ks.map Prod.fst = [.string_block_chomping, .string_multiline_indent, .string_multiline_content] ∨
      ks.map Prod.fst = [.string_multiline_indent, .string_multiline_content])
    (hk : ∀ x ∈ ks, Good T B x.1 x.2) : Fine B (IsYaml (ParsedValue T)) (Consume.stringMultiline mk ks) := by
  rcases good_multiline_true hmk hl fun x hx => (hk x hx).weaken fun _ => trivial with ⟨h, -⟩ | h
  · exact .inl ⟨h, hb h⟩
  · exact .inr h

/-- One child passed on. -/
theorem good_pass {children : List Rule} {ks : Kids} {r : Rule} {P Q : Yaml → Prop} (hl : ks.map Prod.fst = [r])
    (hk : ∀ x ∈ ks, Good T B x.1 x.2) (hr : r ∈ children) (hi : r ≠ .string_multiline_indent) (hP : result T r = some (IsYaml P))
    (hpq : ∀ y, P y → Q y) : Fine B (IsYaml Q) (Consume.passYaml children ks) := by
  have hk0 := kids_cons hl; clear hl; obtain ⟨o, _, rfl, hl⟩ := hk0
  obtain rfl := List.map_eq_nil_iff.1 hl
  exact passYaml_fine hr (good_fine (hk (_, o) (by mem_kids)) hi hP) hpq

theorem good_oneStr {child : Rule} {ks : Kids} {P : Str → Prop} (hl : ks.map Prod.fst = [child])
    (hk : ∀ x ∈ ks, Good T B x.1 x.2) (hi : child ≠ .string_multiline_indent) (hP : result T child = some (IsStr P)) :
    Fine B (IsStr P) (Consume.oneStr child ks) := by
  have hk0 := kids_cons hl; clear hl; obtain ⟨o, _, rfl, hl⟩ := hk0
  obtain rfl := List.map_eq_nil_iff.1 hl
  simp only [Consume.oneStr, if_true]
  refine (good_fine (hk (_, o) (by mem_kids)) hi hP).bind ?_
  rintro _ ⟨s, rfl, hs⟩
  exact .ok ⟨s, rfl, hs⟩

theorem good_hash_like {ks : Kids} {l' : List Rule} (h' : ∀ x ∈ l', x = .hash_element_data)
    (hl : ks.map Prod.fst = .commentnls :: .first_hash_element :: (l' ++ [.commentnls])) (hk : ∀ x ∈ ks, Good T B x.1 x.2) :
    Fine B (IsYaml fun y => ParsedValue T y ∧ RootCollection y) (Consume.hash ks) := by
  have hk0 := kids_cons hl; clear hl; obtain ⟨o₁, _, rfl, hl⟩ := hk0
  have hk0 := kids_cons hl; clear hl; obtain ⟨o₂, _, rfl, hl⟩ := hk0
  have hk0 := kids_append hl; clear hl; obtain ⟨t, t', rfl, ht, ht'⟩ := hk0
  have hk0 := kids_cons ht'; clear ht'; obtain ⟨o₃, _, rfl, hl⟩ := hk0
  obtain rfl := List.map_eq_nil_iff.1 hl
  simp only [Consume.hash]
  refine (good_fine (hk (_, o₁) (by mem_kids)) (by nofun) rfl : Fine B (IsLines fun _ => True) o₁).bind ?_
  rintro _ ⟨cs, rfl, hcs, -⟩
  refine (good_fine (hk (_, o₂) (by mem_kids)) (by nofun) rfl :
    Fine B (fun v => ∃ ds, v = .hashData ds ∧ HashPart T ds ∧ ∃ e, HashData.element e ∈ ds) o₂).bind ?_
  rintro _ ⟨ds, rfl, hds, e, he⟩
  have h3 : Fine B (IsLines fun _ => True) o₃ := good_fine (hk (_, o₃) (by mem_kids)) (by nofun) rfl
  have hm := kids_good (ks := t) (P := fun v => ∃ ds, v = .hashData ds ∧ HashPart T ds ∧ ∃ e, HashData.element e ∈ ds)
    (fun x hx => hk x (by simp [hx])) (by rw [ht]; exact h') (by decide) rfl
  refine (manyThen_fine (by decide) (Q := fun ds => HashPart T ds) (Q' := fun l : List Str => ∀ s ∈ l, LineText s) ?_ ?_
    (by rw [ht]; exact h') hm h3).bind ?_
  · rintro _ ⟨ds, rfl, h, -⟩; exact .ok h
  · rintro _ ⟨l, rfl, h, -⟩; exact .ok h
  · rintro ⟨p1, p2⟩ ⟨h1, h2⟩
    refine .ok ⟨_, rfl, ?_, trivial⟩
    refine HashPart.toValue ?_ ⟨e, by simp [he]⟩
    exact (((HashPart.ofComments hcs).append hds).append (.flatten h1)).append (.ofComments h2)

theorem good_array_like {ks : Kids} {l' : List Rule} (h' : ∀ x ∈ l', x = .block_array_data)
    (hl : ks.map Prod.fst = .commentnls :: .first_block_array_element :: (l' ++ [.commentnls])) (hk : ∀ x ∈ ks, Good T B x.1 x.2) :
    Fine B (IsYaml fun y => ParsedValue T y ∧ RootCollection y) (Consume.blockArray ks) := by
  have hk0 := kids_cons hl; clear hl; obtain ⟨o₁, _, rfl, hl⟩ := hk0
  have hk0 := kids_cons hl; clear hl; obtain ⟨o₂, _, rfl, hl⟩ := hk0
  have hk0 := kids_append hl; clear hl; obtain ⟨t, t', rfl, ht, ht'⟩ := hk0
  have hk0 := kids_cons ht'; clear ht'; obtain ⟨o₃, _, rfl, hl⟩ := hk0
  obtain rfl := List.map_eq_nil_iff.1 hl
  simp only [Consume.blockArray]
  refine (good_fine (hk (_, o₁) (by mem_kids)) (by nofun) rfl : Fine B (IsLines fun _ => True) o₁).bind ?_
  rintro _ ⟨cs, rfl, hcs, -⟩
  refine (good_fine (hk (_, o₂) (by mem_kids)) (by nofun) rfl :
    Fine B (fun v => ∃ ds, v = .arrayData ds ∧ ArrayPart T ds ∧ ∃ e, ArrayData.element e ∈ ds) o₂).bind ?_
  rintro _ ⟨ds, rfl, hds, e, he⟩
  have h3 : Fine B (IsLines fun _ => True) o₃ := good_fine (hk (_, o₃) (by mem_kids)) (by nofun) rfl
  have hm := kids_good (ks := t) (P := fun v => ∃ ds, v = .arrayData ds ∧ ArrayPart T ds ∧ ∃ e, ArrayData.element e ∈ ds)
    (fun x hx => hk x (by simp [hx])) (by rw [ht]; exact h') (by decide) rfl
  refine (manyThen_fine (by decide) (Q := fun ds => ArrayPart T ds) (Q' := fun l : List Str => ∀ s ∈ l, LineText s) ?_ ?_
    (by rw [ht]; exact h') hm h3).bind ?_
  · rintro _ ⟨ds, rfl, h, -⟩; exact .ok h
  · rintro _ ⟨l, rfl, h, -⟩; exact .ok h
  · rintro ⟨p1, p2⟩ ⟨h1, h2⟩
    refine .ok ⟨_, rfl, ?_, trivial⟩
    refine ArrayPart.toValue ?_ ⟨e, by simp [he]⟩
    exact (((ArrayPart.ofComments hcs).append hds).append (.flatten h1)).append (.ofComments h2)

theorem good_alternative_array {ks : Kids} {l' : List Rule} (h' : ∀ x ∈ l', x = .block_array_data)
    (hl : ks.map Prod.fst = .first_block_array_element :: .first_block_array_element :: (l' ++ [.commentnls]))
    (hk : ∀ x ∈ ks, Good T B x.1 x.2) : Fine B (IsYaml (ParsedValue T)) (Consume.alternativeArray ks) := by
  have hk0 := kids_cons hl; clear hl; obtain ⟨o₁, _, rfl, hl⟩ := hk0
  have hk0 := kids_cons hl; clear hl; obtain ⟨o₂, _, rfl, hl⟩ := hk0
  have hk0 := kids_append hl; clear hl; obtain ⟨t, t', rfl, ht, ht'⟩ := hk0
  have hk0 := kids_cons ht'; clear ht'; obtain ⟨o₃, _, rfl, hl⟩ := hk0
  obtain rfl := List.map_eq_nil_iff.1 hl
  simp only [Consume.alternativeArray]
  refine (good_fine (hk (_, o₁) (by mem_kids)) (by nofun) rfl :
    Fine B (fun v => ∃ ds, v = .arrayData ds ∧ ArrayPart T ds ∧ ∃ e, ArrayData.element e ∈ ds) o₁).bind ?_
  rintro _ ⟨ds₁, rfl, hds₁, e₁, he₁⟩
  refine (good_fine (hk (_, o₂) (by mem_kids)) (by nofun) rfl :
    Fine B (fun v => ∃ ds, v = .arrayData ds ∧ ArrayPart T ds ∧ ∃ e, ArrayData.element e ∈ ds) o₂).bind ?_
  rintro _ ⟨ds, rfl, hds, e, he⟩
  have h3 : Fine B (IsLines fun _ => True) o₃ := good_fine (hk (_, o₃) (by mem_kids)) (by nofun) rfl
  have hm := kids_good (ks := t) (P := fun v => ∃ ds, v = .arrayData ds ∧ ArrayPart T ds ∧ ∃ e, ArrayData.element e ∈ ds)
    (fun x hx => hk x (by simp [hx])) (by rw [ht]; exact h') (by decide) rfl
  refine (manyThen_fine (by decide) (Q := fun ds => ArrayPart T ds) (Q' := fun l : List Str => ∀ s ∈ l, LineText s) ?_ ?_
    (by rw [ht]; exact h') hm h3).bind ?_
  · rintro _ ⟨ds, rfl, h, -⟩; exact .ok h
  · rintro _ ⟨l, rfl, h, -⟩; exact .ok h
  · rintro ⟨p1, p2⟩ ⟨h1, h2⟩
    refine .ok ⟨_, rfl, ?_⟩
    refine ArrayPart.toValue ?_ ⟨e, by simp [he]⟩
    exact ((hds₁.append hds).append (.flatten h1)).append (.ofComments h2)

theorem good_continuation {ks : Kids} {l' : List Rule} (h' : ∀ x ∈ l', x = .hash_element_data)
    (hl : ks.map Prod.fst = .commentnls :: .first_hash_element :: l') (hk : ∀ x ∈ ks, Good T B x.1 x.2) :
    Fine B (fun v => ∃ ds, v = .hashData ds ∧ HashPart T ds ∧ ∃ e, HashData.element e ∈ ds)
      (Consume.alternativeHashContinuation ks) := by
  have hk0 := kids_cons hl; clear hl; obtain ⟨o₁, _, rfl, hl⟩ := hk0
  have hk0 := kids_cons hl; clear hl; obtain ⟨o₂, t, rfl, ht⟩ := hk0
  simp only [Consume.alternativeHashContinuation]
  refine (good_fine (hk (_, o₁) (by mem_kids)) (by nofun) rfl : Fine B (IsLines fun _ => True) o₁).bind ?_
  rintro _ ⟨cs, rfl, hcs, -⟩
  refine (good_fine (hk (_, o₂) (by mem_kids)) (by nofun) rfl :
    Fine B (fun v => ∃ ds, v = .hashData ds ∧ HashPart T ds ∧ ∃ e, HashData.element e ∈ ds) o₂).bind ?_
  rintro _ ⟨ds, rfl, hds, e, he⟩
  have hm := kids_good (ks := t) (P := fun v => ∃ ds, v = .hashData ds ∧ HashPart T ds ∧ ∃ e, HashData.element e ∈ ds)
    (fun x hx => hk x (by simp [hx])) (by rw [ht]; exact h') (by decide) rfl
  refine (many_fine (Q := fun ds => HashPart T ds) ?_ (by rw [ht]; exact h') hm).bind ?_
  · rintro _ ⟨ds, rfl, h, -⟩; exact .ok h
  · intro l hl
    refine .ok ⟨_, rfl, ((HashPart.ofComments hcs).append hds).append (.flatten hl), e, by simp [he]⟩

theorem good_yaml {ks : Kids} {l' : List Rule} (h' : ∀ x ∈ l', x = .comment)
    (hl : ks.map Prod.fst = .leading_comments :: .commentnls :: .document :: (l' ++ [.EOI])) (hk : ∀ x ∈ ks, Good T B x.1 x.2) :
    Fine B (fun v => ∃ d, v = .doc d ∧ ParsedDocument T d) (Consume.yaml ks) := by
  have hk0 := kids_cons hl; clear hl; obtain ⟨o₁, _, rfl, hl⟩ := hk0
  have hk0 := kids_cons hl; clear hl; obtain ⟨o₂, _, rfl, hl⟩ := hk0
  have hk0 := kids_cons hl; clear hl; obtain ⟨o₃, _, rfl, hl⟩ := hk0
  have hk0 := kids_append hl; clear hl; obtain ⟨t, t', rfl, ht, ht'⟩ := hk0
  have hk0 := kids_cons ht'; clear ht'; obtain ⟨o₄, _, rfl, hl⟩ := hk0
  obtain rfl := List.map_eq_nil_iff.1 hl
  simp only [Consume.yaml]
  refine (good_fine (hk (_, o₁) (by mem_kids)) (by nofun) rfl : Fine B (IsLines fun _ => True) o₁).bind ?_
  rintro _ ⟨before, rfl, hbefore, -⟩
  refine (good_fine (hk (_, o₂) (by mem_kids)) (by nofun) rfl : Fine B (IsLines fun _ => True) o₂).bind ?_
  rintro _ ⟨cs, rfl, hcs, -⟩
  refine (good_fine (hk (_, o₃) (by mem_kids)) (by nofun) rfl : Fine B (IsYaml fun y => ParsedValue T y ∧ RootCollection y) o₃).bind ?_
  rintro _ ⟨y, rfl, hy, hroot⟩
  have h4 : Fine B (fun v => v = .unit) o₄ := good_fine (hk (_, o₄) (by mem_kids)) (by nofun) rfl
  have hm := kids_good (ks := t) (P := IsStr LineText) (fun x hx => hk x (by simp [hx])) (by rw [ht]; exact h') (by decide) rfl
  refine (manyThen_fine (by decide) (Q := LineText) (Q' := fun _ : Val => True) ?_ ?_
    (by rw [ht]; exact h') hm h4).bind ?_
  · rintro _ ⟨s, rfl, h⟩; exact .ok h
  · rintro _ rfl; exact .ok trivial
  · rintro ⟨p1, p2⟩ ⟨h1, -⟩
    refine .ok ⟨_, rfl, hbefore, cs, p1, y, rfl, ?_, hroot, hy⟩
    intro c hc
    rcases List.mem_append.1 hc with hc | hc
    · exact hcs c hc
    · exact h1 c hc

theorem FlowWeak.up {y : Yaml} (h : FlowWeak T y) (hp : ∀ u, y = .unquotedString u → FlowPlace T u) : ParsedFlow T y := by
  rcases h with ⟨s, rfl, h⟩ | h
  · have hp := hp s rfl
    exact .plain ⟨h.plain, hp.nonempty, h.noFlow, h.tail, hp.start, hp.notReference⟩
  · exact h

/-- A value of a child, given what its place says. -/
theorem fine_up {P Q : Yaml → Prop} {o : Out Val} (h : Fine B (IsYaml P) o) (hpq : ∀ y, o = .ok (.yaml y) → P y → Q y) : Fine B (IsYaml Q) o := by
  rcases h with h | ⟨v, rfl, y, rfl, hy⟩
  · exact .inl h
  · exact .inr ⟨_, rfl, y, rfl, hpq y rfl hy⟩

/-- Each consumer function, on the children the grammar produces. -/
theorem good_act {r : Rule} {s rest : Str} {k k' : List Str} {us : List (Tree Rule)}
    (h : Yes (yamlGrammar T) ((yamlGrammar T).body r) s k us rest k') {ks : Kids} (hsem : (yamlGrammar T).kind r = .normal → ks = semKids us)
    (hpanic : ∀ mk, r = .string_multiline_literal ∨ r = .string_multiline_folded → Consume.stringMultiline mk ks = .panic → B)
    (hkids : (yamlGrammar T).kind r = .normal → kidsOf r (ks.map Prod.fst))
    (hk : ∀ x ∈ ks, Good T B x.1 x.2) : Good T B r (act r (consumed s rest) ks) := by
  cases r with
  | EOI => exact .ok rfl
  | removable_newline => exact .ok rfl
  | comment_text => exact .ok ⟨_, rfl, text_comment_text h⟩
  | block_string => exact .ok ⟨_, rfl, text_block_string h⟩
  | alias_name => exact .ok ⟨_, rfl, text_alias_name h⟩
  | hash_key => exact .ok ⟨_, rfl, text_hash_key h⟩
  | comment => exact good_oneStr (hkids rfl) hk (by decide) rfl
  | commentnl => exact good_oneStr (hkids rfl) hk (by decide) rfl
  | alias => exact good_oneStr (hkids rfl) hk (by decide) rfl
  | anchor =>
    obtain ⟨o, _, rfl, hl⟩ := kids_cons (hkids rfl)
    obtain rfl := List.map_eq_nil_iff.1 hl
    refine (good_fine (hk (_, o) (by mem_kids)) (by nofun) rfl : Fine B (IsStr (NameText T)) o).bind ?_
    rintro _ ⟨s, rfl, hs⟩
    exact .ok ⟨_, rfl, .anchor hs, .anchor hs⟩
  | inline_hash_element =>
    obtain ⟨o, _, rfl, hl⟩ := kids_cons (hkids rfl)
    have hk0 := kids_cons hl; clear hl; obtain ⟨o', _, rfl, hl⟩ := hk0
    obtain rfl := List.map_eq_nil_iff.1 hl
    refine (good_fine (hk (_, o) (by mem_kids)) (by nofun) rfl : Fine B (IsStr (KeyText T)) o).bind ?_
    rintro _ ⟨s, rfl, hs⟩
    refine (fine_up (Q := ParsedFlow T) (good_fine (hk (_, o') (by mem_kids)) (by nofun) rfl : Fine B (IsYaml (FlowWeak T)) o') ?_).bind ?_
    · rintro y rfl hy
      refine hy.up ?_
      rintro u rfl
      obtain ⟨t, ht, he⟩ := semKids_mem (x := (_, .ok (.yaml (.unquotedString u)))) (ts := us) (by rw [← hsem rfl]; mem_kids)
      simp only [Prod.mk.injEq] at he
      exact hash_place h t ht u he.2.symm
    rintro _ ⟨y, rfl, hy⟩
    exact .ok ⟨s, y, rfl, hs, hy⟩
  | inline_hash =>
    have hm := kids_good (P := fun v => ∃ k y, v = .entry k y ∧ KeyText T k ∧ ParsedFlow T y) hk (hkids rfl) (by decide) rfl
    refine (many_fine (Q := fun e => KeyText T e.1 ∧ ParsedFlow T e.2) ?_ (hkids rfl) hm).bind ?_
    · rintro _ ⟨k, y, rfl, h⟩; exact .ok h
    · intro es hes
      have : ParsedFlow T (.inlineHash es) := .inlineHash (fun k v hkv => (hes _ hkv).1) (fun k v hkv => (hes _ hkv).2)
      exact .ok ⟨_, rfl, this, .flowHash this⟩
  | inline_array =>
    have hm := kids_good (P := IsYaml (FlowWeak T)) hk (hkids rfl) (by decide) rfl
    have hm : ∀ x ∈ ks, Fine B (IsYaml (ParsedFlow T)) x.2 := by
      intro x hx
      refine fine_up (hm x hx) fun y hy hw => hw.up ?_
      rintro u rfl
      obtain ⟨t, ht, rfl⟩ := semKids_mem (hsem rfl ▸ hx)
      exact array_place h t ht u hy
    refine (many_fine (Q := ParsedFlow T) isYaml_fine (hkids rfl) hm).bind ?_
    intro es hes
    have : ParsedFlow T (.inlineArray es) := .inlineArray hes
    exact .ok ⟨_, rfl, this, .flowArray this, trivial⟩
  | unquoted_string => exact .ok ⟨_, rfl, .inl ⟨_, rfl, text_unquoted_string h⟩⟩
  | unquoted_inline_string => exact .ok ⟨_, rfl, .inl ⟨_, rfl, text_unquoted_inline_string h⟩⟩
  | escaped_double_quote_char_value =>
    obtain ⟨c, hc, hm⟩ := text_escaped_double h
    rw [hc]
    simp only [List.mem_cons, List.not_mem_nil, or_false] at hm
    rcases hm with rfl | rfl | rfl | rfl | rfl | rfl <;> exact .ok ⟨_, rfl⟩
  | double_quote_text => exact .ok ⟨_, rfl, text_double_quote_text h⟩
  | single_quote_text => exact .ok ⟨_, rfl, text_single_quote_text h⟩
  | single_quote => rw [text_single_quote h]; exact .ok ⟨_, rfl⟩
  | blank_lines =>
    obtain ⟨n, hn⟩ := text_blank_lines h
    rw [hn]
    show Fine B _ (Consume.blankLines _)
    simp only [Consume.blankLines, linesCount_newlines]
    exact .ok ⟨_, rfl, by omega⟩
  | double_quote_without_escape =>
    have hl := hkids rfl
    rcases hl with hl | hl | hl | hl <;>
      (have hk0 := kids_cons hl; clear hl; obtain ⟨o, _, rfl, hl⟩ := hk0
       obtain rfl := List.map_eq_nil_iff.1 hl
       refine (good_fine (hk (_, o) (by mem_kids)) (by nofun) rfl).bind ?_)
    · rintro _ ⟨c, rfl⟩; exact .ok ⟨_, rfl, trivial⟩
    · rintro _ ⟨n, rfl, hn⟩; exact .ok ⟨_, rfl, hn⟩
    · rintro _ rfl; exact .ok ⟨_, rfl, trivial⟩
    · rintro _ ⟨s, rfl, hs⟩; exact .ok ⟨_, rfl, hs⟩
  | escaped_single_quote_char =>
    have hl := hkids rfl
    rcases hl with hl | hl | hl | hl <;>
      (have hk0 := kids_cons hl; clear hl; obtain ⟨o, _, rfl, hl⟩ := hk0
       obtain rfl := List.map_eq_nil_iff.1 hl
       refine (good_fine (hk (_, o) (by mem_kids)) (by nofun) rfl).bind ?_)
    · rintro _ ⟨c, rfl⟩; exact .ok ⟨_, rfl, trivial⟩
    · rintro _ ⟨n, rfl, hn⟩; exact .ok ⟨_, rfl, hn⟩
    · rintro _ rfl; exact .ok ⟨_, rfl, trivial⟩
    · rintro _ ⟨s, rfl, hs⟩; exact .ok ⟨_, rfl, hs⟩
  | double_quote_content =>
    have hm := kids_good (P := fun v => ∃ p, v = .dqPart p ∧ DQPartText p) hk (hkids rfl) (by decide) rfl
    rcases many_fine (as := Val.asDqPart) (Q := DQPartText) (by rintro _ ⟨p, rfl, h⟩; exact .ok h) (hkids rfl) hm with ⟨hp, hb⟩ | ⟨ps, hps, -⟩
    · exact .inl ⟨by simp only [act, Consume.doubleQuoteContent, hp, Out.bind], hb⟩
    · exact .inr ⟨_, by simp only [act, Consume.doubleQuoteContent, hps, Out.bind], ps, rfl, dq_content_chain h (hsem rfl ▸ hps)⟩
  | single_quote_content =>
    have hm := kids_good (P := fun v => ∃ p, v = .sqPart p ∧ SQPartText p) hk (hkids rfl) (by decide) rfl
    rcases many_fine (as := Val.asSqPart) (Q := SQPartText) (by rintro _ ⟨p, rfl, h⟩; exact .ok h) (hkids rfl) hm with ⟨hp, hb⟩ | ⟨ps, hps, -⟩
    · exact .inl ⟨by simp only [act, Consume.singleQuoteContent, hp, Out.bind], hb⟩
    · exact .inr ⟨_, by simp only [act, Consume.singleQuoteContent, hps, Out.bind], ps, rfl, sq_content_chain h (hsem rfl ▸ hps)⟩
  | double_quoted_string =>
    obtain ⟨o, _, rfl, hl⟩ := kids_cons (hkids rfl)
    obtain rfl := List.map_eq_nil_iff.1 hl
    refine (good_fine (hk (_, o) (by mem_kids)) (by nofun) rfl :
      Fine B (fun v => ∃ ps, v = .dqParts ps ∧ DQChain ps) o).bind ?_
    rintro _ ⟨ps, rfl, hps⟩
    exact .ok ⟨_, rfl, .doubleQuoted hps, .doubleQuoted hps⟩
  | single_quoted_string =>
    obtain ⟨o, _, rfl, hl⟩ := kids_cons (hkids rfl)
    obtain rfl := List.map_eq_nil_iff.1 hl
    refine (good_fine (hk (_, o) (by mem_kids)) (by nofun) rfl :
      Fine B (fun v => ∃ ps, v = .sqParts ps ∧ SQChain ps) o).bind ?_
    rintro _ ⟨ps, rfl, hps⟩
    exact .ok ⟨_, rfl, .singleQuoted hps, .singleQuoted hps⟩
  | string =>
    rcases hkids rfl with hl | hl | hl
    · exact good_pass hl hk (by decide) (by decide) rfl fun _ h => h
    · exact good_pass hl hk (by decide) (by decide) rfl fun _ h => .inr h.2
    · exact good_pass hl hk (by decide) (by decide) rfl fun _ h => .inr h.2
  | inline_array_string =>
    rcases hkids rfl with hl | hl | hl
    · exact good_pass hl hk (by decide) (by decide) rfl fun _ h => h
    · exact good_pass hl hk (by decide) (by decide) rfl fun _ h => .inr h.1
    · exact good_pass hl hk (by decide) (by decide) rfl fun _ h => .inr h.1
  | inline_array_value =>
    rcases hkids rfl with hl | hl | hl | hl
    · exact good_pass hl hk (by decide) (by decide) rfl fun _ h => .inr h.1
    · exact good_pass hl hk (by decide) (by decide) rfl fun _ h => .inr h.1
    · exact good_pass hl hk (by decide) (by decide) rfl fun _ h => .inr h.1
    · exact good_pass hl hk (by decide) (by decide) rfl fun _ h => h
  | inline_value =>
    rcases hkids rfl with hl | hl | hl | hl
    · exact good_pass hl hk (by decide) (by decide) rfl fun _ h => h.2
    · exact good_pass hl hk (by decide) (by decide) rfl fun _ h => h.2.1
    · exact good_pass hl hk (by decide) (by decide) rfl fun _ h => h.2
    · have hk0 := kids_cons hl; clear hl; obtain ⟨o, _, rfl, hl⟩ := hk0
      obtain rfl := List.map_eq_nil_iff.1 hl
      refine passYaml_fine (r := .string) (children := [.anchor, .inline_array, .inline_hash, .string]) (P := ParsedValue T) (by decide) (fine_up (P := BlockWeak T) (good_fine (hk (_, o) (by mem_kids)) (by nofun) rfl) ?_) fun _ h => h
      rintro y rfl (⟨u, rfl, hu⟩ | hy)
      · obtain ⟨t, ht, he⟩ := semKids_mem (x := (_, .ok (.yaml (.unquotedString u)))) (ts := us) (by rw [← hsem rfl]; mem_kids)
        simp only [Prod.mk.injEq] at he
        exact .plain ⟨hu.plain, hu.notBlock, block_place h t ht u he.2.symm⟩
      · exact hy
  | yaml_value =>
    rcases hkids rfl with hl | hl | hl | hl | hl
    · exact good_pass hl hk (by decide) (by decide) rfl fun _ h => h.1
    · exact good_pass hl hk (by decide) (by decide) rfl fun _ h => h.1
    · exact good_pass hl hk (by decide) (by decide) rfl fun _ h => h
    · exact good_pass hl hk (by decide) (by decide) rfl fun _ h => h
    · exact good_pass hl hk (by decide) (by decide) rfl fun _ h => h
  | array =>
    rcases hkids rfl with hl | hl
    · exact good_pass hl hk (by decide) (by decide) rfl fun _ h => h.2
    · exact good_pass hl hk (by decide) (by decide) rfl fun _ h => h
  | document =>
    rcases hkids rfl with hl | hl
    · exact good_pass hl hk (by decide) (by decide) rfl fun _ h => h
    · exact good_pass hl hk (by decide) (by decide) rfl fun _ h => h
  | block_empty_lines => exact .ok ⟨_, rfl, replicate_lines _, trivial⟩
  | string_multiline_trailing => exact .ok ⟨_, rfl, replicate_lines _, trivial⟩
  | string_block_chomping =>
    rcases text_chomping h with h | h <;> rw [h] <;> exact .ok ⟨_, rfl⟩
  | string_multiline_indent =>
    show _ ∨ _
    simp only [act, Consume.stringMultilineIndent]
    split
    · exact .inr ⟨none, rfl⟩
    · split
      · exact .inl rfl
      · exact .inl rfl
      · exact .inr ⟨_, rfl⟩
  | string_multiline_content_part =>
    obtain ⟨o, _, rfl, hl⟩ := kids_cons (hkids rfl)
    have hk0 := kids_cons hl; clear hl; obtain ⟨o', _, rfl, hl⟩ := hk0
    obtain rfl := List.map_eq_nil_iff.1 hl
    refine (good_fine (hk (_, o) (by mem_kids)) (by nofun) rfl : Fine B (IsLines fun _ => True) o).bind ?_
    rintro _ ⟨es, rfl, hes, -⟩
    refine (good_fine (hk (_, o') (by mem_kids)) (by nofun) rfl : Fine B (IsStr LineText) o').bind ?_
    rintro _ ⟨b, rfl, hb⟩
    refine .ok ⟨_, rfl, ?_, trivial⟩
    intro x hx
    rcases List.mem_append.1 hx with hx | hx
    · exact hes x hx
    · simp only [List.mem_singleton] at hx; exact hx ▸ hb
  | string_multiline_content =>
    obtain ⟨l', h', hl⟩ := hkids rfl
    have hk0 := kids_cons hl; clear hl; obtain ⟨o₁, _, rfl, hl⟩ := hk0
    have hk0 := kids_cons hl; clear hl; obtain ⟨o₂, _, rfl, hl⟩ := hk0
    have hk0 := kids_append hl; clear hl; obtain ⟨t, t', rfl, ht, ht'⟩ := hk0
    have hk0 := kids_cons ht'; clear ht'; obtain ⟨o₃, _, rfl, hl⟩ := hk0
    obtain rfl := List.map_eq_nil_iff.1 hl
    refine (good_fine (hk (_, o₁) (by mem_kids)) (by nofun) rfl : Fine B (IsLines fun _ => True) o₁).bind ?_
    rintro _ ⟨es, rfl, hes, -⟩
    refine (good_fine (hk (_, o₂) (by mem_kids)) (by nofun) rfl : Fine B (IsStr LineText) o₂).bind ?_
    rintro _ ⟨b, rfl, hb⟩
    have h3 : Fine B (IsLines fun _ => True) o₃ := good_fine (hk (_, o₃) (by mem_kids)) (by nofun) rfl
    have hm := kids_good (ks := t) (P := IsLines fun _ => True) (fun x hx => hk x (by simp [hx])) (by rw [ht]; exact h') (by decide) rfl
    refine (manyThen_fine (by decide) (Q := fun l : List Str => (∀ s ∈ l, LineText s) ∧ True)
      (Q' := fun l : List Str => (∀ s ∈ l, LineText s) ∧ True) isLines_fine isLines_fine (by rw [ht]; exact h') hm h3).bind ?_
    rintro ⟨p1, p2⟩ ⟨h1, h2⟩
    refine .ok ⟨_, rfl, ?_, by simp⟩
    intro x hx
    simp only [List.append_assoc, List.mem_append, List.mem_singleton, List.mem_flatten] at hx
    rcases hx with hx | rfl | ⟨l, hl, hx⟩ | hx
    · exact hes x hx
    · exact hb
    · exact (h1 l hl).1 x hx
    · exact h2.1 x hx
  | string_multiline_literal =>
    exact good_multiline (mk := .literalString) (hpanic _ (.inl rfl)) (fun _ _ h h' => .literal h h') (hkids rfl) hk
  | string_multiline_folded =>
    exact good_multiline (mk := .foldedString) (hpanic _ (.inr rfl)) (fun _ _ h h' => .folded h h') (hkids rfl) hk
  | aliased_yaml_value =>
    rcases hkids rfl with hl | hl
    · have hk0 := kids_cons hl; clear hl; obtain ⟨o, _, rfl, hl⟩ := hk0
      have hk0 := kids_cons hl; clear hl; obtain ⟨o', _, rfl, hl⟩ := hk0
      obtain rfl := List.map_eq_nil_iff.1 hl
      refine (good_fine (hk (_, o) (by mem_kids)) (by nofun) rfl : Fine B (IsStr (NameText T)) o).bind ?_
      rintro _ ⟨a, rfl, ha⟩
      refine (good_fine (hk (_, o') (by mem_kids)) (by nofun) rfl : Fine B (IsYaml (ParsedValue T)) o').bind ?_
      rintro _ ⟨y, rfl, hy⟩
      exact .ok ⟨_, rfl, fun n hn => by simp at hn; exact hn ▸ ha, hy⟩
    · have hk0 := kids_cons hl; clear hl; obtain ⟨o', _, rfl, hl⟩ := hk0
      obtain rfl := List.map_eq_nil_iff.1 hl
      refine (good_fine (hk (_, o') (by mem_kids)) (by nofun) rfl : Fine B (IsYaml (ParsedValue T)) o').bind ?_
      rintro _ ⟨y, rfl, hy⟩
      exact .ok ⟨_, rfl, fun n hn => by simp at hn, hy⟩
  | block_array_aliased_yaml_value =>
    rcases hkids rfl with hl | hl <;>
    · have hk0 := kids_cons hl; clear hl; obtain ⟨o, _, rfl, hl⟩ := hk0
      obtain rfl := List.map_eq_nil_iff.1 hl
      refine (good_fine (hk (_, o) (by mem_kids)) (by nofun) rfl : Fine B (fun v => ∃ a, v = .aliased a ∧ AliasedOk T a) o).bind ?_
      rintro _ ⟨a, rfl, ha⟩
      exact .ok ⟨a, rfl, ha⟩
  | alternative_aliased_yaml_value =>
    rcases hkids rfl with (hl | hl) | hl | hl
    · have hk0 := kids_cons hl; clear hl; obtain ⟨o, _, rfl, hl⟩ := hk0
      have hk0 := kids_cons hl; clear hl; obtain ⟨o', _, rfl, hl⟩ := hk0
      obtain rfl := List.map_eq_nil_iff.1 hl
      refine (good_fine (hk (_, o) (by mem_kids)) (by nofun) rfl : Fine B (IsStr (NameText T)) o).bind ?_
      rintro _ ⟨a, rfl, ha⟩
      refine (good_fine (hk (_, o') (by mem_kids)) (by nofun) rfl : Fine B (IsYaml (ParsedValue T)) o').bind ?_
      rintro _ ⟨y, rfl, hy⟩
      exact .ok ⟨_, rfl, fun n hn => by simp at hn; exact hn ▸ ha, hy⟩
    · have hk0 := kids_cons hl; clear hl; obtain ⟨o, _, rfl, hl⟩ := hk0
      have hk0 := kids_cons hl; clear hl; obtain ⟨o', _, rfl, hl⟩ := hk0
      obtain rfl := List.map_eq_nil_iff.1 hl
      refine (good_fine (hk (_, o) (by mem_kids)) (by nofun) rfl : Fine B (IsStr (NameText T)) o).bind ?_
      rintro _ ⟨a, rfl, ha⟩
      refine (good_fine (hk (_, o') (by mem_kids)) (by nofun) rfl : Fine B (IsYaml (ParsedValue T)) o').bind ?_
      rintro _ ⟨y, rfl, hy⟩
      exact .ok ⟨_, rfl, fun n hn => by simp at hn; exact hn ▸ ha, hy⟩
    · have hk0 := kids_cons hl; clear hl; obtain ⟨o', _, rfl, hl⟩ := hk0
      obtain rfl := List.map_eq_nil_iff.1 hl
      refine (good_fine (hk (_, o') (by mem_kids)) (by nofun) rfl : Fine B (IsYaml (ParsedValue T)) o').bind ?_
      rintro _ ⟨y, rfl, hy⟩
      exact .ok ⟨_, rfl, fun n hn => by simp at hn, hy⟩
    · have hk0 := kids_cons hl; clear hl; obtain ⟨o', _, rfl, hl⟩ := hk0
      obtain rfl := List.map_eq_nil_iff.1 hl
      refine (good_fine (hk (_, o') (by mem_kids)) (by nofun) rfl : Fine B (IsYaml (ParsedValue T)) o').bind ?_
      rintro _ ⟨y, rfl, hy⟩
      exact .ok ⟨_, rfl, fun n hn => by simp at hn, hy⟩
  | hash_element =>
    obtain ⟨o, _, rfl, hl⟩ := kids_cons (hkids rfl)
    have hk0 := kids_cons hl; clear hl; obtain ⟨o', _, rfl, hl⟩ := hk0
    obtain rfl := List.map_eq_nil_iff.1 hl
    refine (good_fine (hk (_, o) (by mem_kids)) (by nofun) rfl : Fine B (IsStr (KeyText T)) o).bind ?_
    rintro _ ⟨s, rfl, hs⟩
    refine (good_fine (hk (_, o') (by mem_kids)) (by nofun) rfl : Fine B (fun v => ∃ a, v = .aliased a ∧ AliasedOk T a) o').bind ?_
    rintro _ ⟨a, rfl, ha⟩
    exact .ok ⟨_, rfl, hs, ha⟩
  | first_hash_element =>
    rcases hkids rfl with hl | hl
    · have hk0 := kids_cons hl; clear hl; obtain ⟨o, _, rfl, hl⟩ := hk0
      have hk0 := kids_cons hl; clear hl; obtain ⟨o', _, rfl, hl⟩ := hk0
      obtain rfl := List.map_eq_nil_iff.1 hl
      refine (good_fine (hk (_, o) (by mem_kids)) (by nofun) rfl :
        Fine B (fun v => ∃ e, v = .hashElement e ∧ KeyText T e.key ∧ AliasedOk T e.value) o).bind ?_
      rintro _ ⟨e, rfl, he1, he2⟩
      refine (good_fine (hk (_, o') (by mem_kids)) (by nofun) rfl : Fine B (IsStr LineText) o').bind ?_
      rintro _ ⟨c, rfl, hc⟩
      exact .ok ⟨_, rfl, .pair he1 he2 hc, e, by simp⟩
    · have hk0 := kids_cons hl; clear hl; obtain ⟨o, _, rfl, hl⟩ := hk0
      obtain rfl := List.map_eq_nil_iff.1 hl
      refine (good_fine (hk (_, o) (by mem_kids)) (by nofun) rfl :
        Fine B (fun v => ∃ e, v = .hashElement e ∧ KeyText T e.key ∧ AliasedOk T e.value) o).bind ?_
      rintro _ ⟨e, rfl, he1, he2⟩
      exact .ok ⟨_, rfl, .single he1 he2, e, by simp⟩
  | hash_element_data =>
    rcases hkids rfl with hl | hl
    · have hk0 := kids_cons hl; clear hl; obtain ⟨o₀, _, rfl, hl⟩ := hk0
      have hk0 := kids_cons hl; clear hl; obtain ⟨o, _, rfl, hl⟩ := hk0
      have hk0 := kids_cons hl; clear hl; obtain ⟨o', _, rfl, hl⟩ := hk0
      obtain rfl := List.map_eq_nil_iff.1 hl
      refine (good_fine (hk (_, o₀) (by mem_kids)) (by nofun) rfl : Fine B (IsLines fun _ => True) o₀).bind ?_
      rintro _ ⟨cs, rfl, hcs, -⟩
      refine (good_fine (hk (_, o) (by mem_kids)) (by nofun) rfl :
        Fine B (fun v => ∃ e, v = .hashElement e ∧ KeyText T e.key ∧ AliasedOk T e.value) o).bind ?_
      rintro _ ⟨e, rfl, he1, he2⟩
      refine (good_fine (hk (_, o') (by mem_kids)) (by nofun) rfl : Fine B (IsStr LineText) o').bind ?_
      rintro _ ⟨c, rfl, hc⟩
      exact .ok ⟨_, rfl, (HashPart.ofComments hcs).append (.pair he1 he2 hc), e, by simp⟩
    · have hk0 := kids_cons hl; clear hl; obtain ⟨o₀, _, rfl, hl⟩ := hk0
      have hk0 := kids_cons hl; clear hl; obtain ⟨o, _, rfl, hl⟩ := hk0
      obtain rfl := List.map_eq_nil_iff.1 hl
      refine (good_fine (hk (_, o₀) (by mem_kids)) (by nofun) rfl : Fine B (IsLines fun _ => True) o₀).bind ?_
      rintro _ ⟨cs, rfl, hcs, -⟩
      refine (good_fine (hk (_, o) (by mem_kids)) (by nofun) rfl :
        Fine B (fun v => ∃ e, v = .hashElement e ∧ KeyText T e.key ∧ AliasedOk T e.value) o).bind ?_
      rintro _ ⟨e, rfl, he1, he2⟩
      exact .ok ⟨_, rfl, (HashPart.ofComments hcs).append (.single he1 he2), e, by simp⟩
  | hash => obtain ⟨l', h', hl⟩ := hkids rfl; exact good_hash_like h' hl hk
  | alternative_hash_continuation => obtain ⟨l', h', hl⟩ := hkids rfl; exact good_continuation h' hl hk
  | alternative_hash =>
    rcases hkids rfl with hl | hl
    · have hk0 := kids_cons hl; clear hl; obtain ⟨o₁, _, rfl, hl⟩ := hk0
      have hk0 := kids_cons hl; clear hl; obtain ⟨o₂, _, rfl, hl⟩ := hk0
      have hk0 := kids_cons hl; clear hl; obtain ⟨o₃, _, rfl, hl⟩ := hk0
      obtain rfl := List.map_eq_nil_iff.1 hl
      refine (good_fine (hk (_, o₁) (by mem_kids)) (by nofun) rfl :
        Fine B (fun v => ∃ ds, v = .hashData ds ∧ HashPart T ds ∧ ∃ e, HashData.element e ∈ ds) o₁).bind ?_
      rintro _ ⟨ds₁, rfl, hds₁, e, he⟩
      refine (good_fine (hk (_, o₂) (by mem_kids)) (by nofun) rfl :
        Fine B (fun v => ∃ ds, v = .hashData ds ∧ HashPart T ds ∧ ∃ e, HashData.element e ∈ ds) o₂).bind ?_
      rintro _ ⟨ds₂, rfl, hds₂, -⟩
      refine (good_fine (hk (_, o₃) (by mem_kids)) (by nofun) rfl : Fine B (IsLines fun _ => True) o₃).bind ?_
      rintro _ ⟨cs, rfl, hcs, -⟩
      exact .ok ⟨_, rfl, ((hds₁.append hds₂).append (.ofComments hcs)).toValue ⟨e, by simp [he]⟩⟩
    · have hk0 := kids_cons hl; clear hl; obtain ⟨o₁, _, rfl, hl⟩ := hk0
      have hk0 := kids_cons hl; clear hl; obtain ⟨o₃, _, rfl, hl⟩ := hk0
      obtain rfl := List.map_eq_nil_iff.1 hl
      refine (good_fine (hk (_, o₁) (by mem_kids)) (by nofun) rfl :
        Fine B (fun v => ∃ ds, v = .hashData ds ∧ HashPart T ds ∧ ∃ e, HashData.element e ∈ ds) o₁).bind ?_
      rintro _ ⟨ds₁, rfl, hds₁, e, he⟩
      refine (good_fine (hk (_, o₃) (by mem_kids)) (by nofun) rfl : Fine B (IsLines fun _ => True) o₃).bind ?_
      rintro _ ⟨cs, rfl, hcs, -⟩
      exact .ok ⟨_, rfl, (hds₁.append (.ofComments hcs)).toValue ⟨e, by simp [he]⟩⟩
  | block_array_element =>
    obtain ⟨o, _, rfl, hl⟩ := kids_cons (hkids rfl)
    obtain rfl := List.map_eq_nil_iff.1 hl
    refine (good_fine (hk (_, o) (by mem_kids)) (by nofun) rfl : Fine B (fun v => ∃ a, v = .aliased a ∧ AliasedOk T a) o).bind ?_
    rintro _ ⟨a, rfl, ha⟩
    exact .ok ⟨a, rfl, ha⟩
  | first_block_array_element =>
    rcases hkids rfl with hl | hl
    · have hk0 := kids_cons hl; clear hl; obtain ⟨o, _, rfl, hl⟩ := hk0
      have hk0 := kids_cons hl; clear hl; obtain ⟨o', _, rfl, hl⟩ := hk0
      obtain rfl := List.map_eq_nil_iff.1 hl
      refine (good_fine (hk (_, o) (by mem_kids)) (by nofun) rfl : Fine B (fun v => ∃ e, v = .arrayDatum (.element e) ∧ AliasedOk T e) o).bind ?_
      rintro _ ⟨e, rfl, he⟩
      refine (good_fine (hk (_, o') (by mem_kids)) (by nofun) rfl : Fine B (IsStr LineText) o').bind ?_
      rintro _ ⟨c, rfl, hc⟩
      exact .ok ⟨_, rfl, .pair he hc, e, by simp⟩
    · have hk0 := kids_cons hl; clear hl; obtain ⟨o, _, rfl, hl⟩ := hk0
      obtain rfl := List.map_eq_nil_iff.1 hl
      refine (good_fine (hk (_, o) (by mem_kids)) (by nofun) rfl : Fine B (fun v => ∃ e, v = .arrayDatum (.element e) ∧ AliasedOk T e) o).bind ?_
      rintro _ ⟨e, rfl, he⟩
      exact .ok ⟨_, rfl, .single he, e, by simp⟩
  | block_array_data =>
    rcases hkids rfl with hl | hl
    · have hk0 := kids_cons hl; clear hl; obtain ⟨o₀, _, rfl, hl⟩ := hk0
      have hk0 := kids_cons hl; clear hl; obtain ⟨o, _, rfl, hl⟩ := hk0
      have hk0 := kids_cons hl; clear hl; obtain ⟨o', _, rfl, hl⟩ := hk0
      obtain rfl := List.map_eq_nil_iff.1 hl
      refine (good_fine (hk (_, o₀) (by mem_kids)) (by nofun) rfl : Fine B (IsLines fun _ => True) o₀).bind ?_
      rintro _ ⟨cs, rfl, hcs, -⟩
      refine (good_fine (hk (_, o) (by mem_kids)) (by nofun) rfl : Fine B (fun v => ∃ e, v = .arrayDatum (.element e) ∧ AliasedOk T e) o).bind ?_
      rintro _ ⟨e, rfl, he⟩
      refine (good_fine (hk (_, o') (by mem_kids)) (by nofun) rfl : Fine B (IsStr LineText) o').bind ?_
      rintro _ ⟨c, rfl, hc⟩
      exact .ok ⟨_, rfl, (ArrayPart.ofComments hcs).append (.pair he hc), e, by simp⟩
    · have hk0 := kids_cons hl; clear hl; obtain ⟨o₀, _, rfl, hl⟩ := hk0
      have hk0 := kids_cons hl; clear hl; obtain ⟨o, _, rfl, hl⟩ := hk0
      obtain rfl := List.map_eq_nil_iff.1 hl
      refine (good_fine (hk (_, o₀) (by mem_kids)) (by nofun) rfl : Fine B (IsLines fun _ => True) o₀).bind ?_
      rintro _ ⟨cs, rfl, hcs, -⟩
      refine (good_fine (hk (_, o) (by mem_kids)) (by nofun) rfl : Fine B (fun v => ∃ e, v = .arrayDatum (.element e) ∧ AliasedOk T e) o).bind ?_
      rintro _ ⟨e, rfl, he⟩
      exact .ok ⟨_, rfl, (ArrayPart.ofComments hcs).append (.single he), e, by simp⟩
  | block_array => obtain ⟨l', h', hl⟩ := hkids rfl; exact good_array_like h' hl hk
  | alternative_array => obtain ⟨l', h', hl⟩ := hkids rfl; exact good_alternative_array h' hl hk
  | commentnls =>
    have hm := kids_good (P := IsStr LineText) hk (hkids rfl) (by decide) rfl
    exact (many_fine (Q := LineText) isStr_fine (hkids rfl) hm).bind fun cs hcs => .ok ⟨_, rfl, hcs, trivial⟩
  | leading_comments =>
    have hm := kids_good (P := IsStr LineText) hk (hkids rfl) (by decide) rfl
    exact (many_fine (Q := LineText) isStr_fine (hkids rfl) hm).bind fun cs hcs => .ok ⟨_, rfl, hcs, trivial⟩
  | yaml => obtain ⟨l', h', hl⟩ := hkids rfl; exact good_yaml h' hl hk
  | _ => exact trivial

theorem semKids_fst (ts : List (Tree Rule)) : (semKids ts).map Prod.fst = ts.map Tree.root := by
  induction ts with
  | nil => rfl
  | cons t ts ih =>
    obtain ⟨r, text, cs⟩ := t
    simp [semKids, Tree.root, ih]

/-- How many of the top entries of the stack are white space, for each rule. -/
def yamlIndents : Rule → Nat
  | .string_multiline_content | .string_multiline_folded | .string_multiline_literal
  | .block_array_element | .first_block_array_element | .block_array_data | .alternative_array
  | .block_array_aliased_yaml_value | .alternative_aliased_yaml_value | .yaml_value | .aliased_yaml_value
  | .hash_element | .first_hash_element | .hash_element_data | .alternative_hash_continuation | .alternative_hash => 1
  | .string_multiline_content_part => 2
  | _ => 0

/-- The pushed expressions that match only white space. -/
def pushesSpaces : Expr Rule → Bool
  | .star _ => true
  | .str [' '] => true
  | _ => false

theorem yamlIndents_ok (T : CharTables) (r : Rule) : tyCheck yamlIndents pushesSpaces ((yamlGrammar T).body r) (List.replicate (yamlIndents r) true) =
    some (List.replicate (yamlIndents r) true) := by
  cases r <;> rfl

theorem spaces_match (T : CharTables) : Matches (yamlGrammar T) Spaces (.star Rule.SP) := by
  intro s k ts r k' h
  obtain ⟨sp, rfl, hsp, -⟩ := yes_spaces h
  rw [consumed_append]
  exact hsp

theorem space_match (T : CharTables) : Matches (yamlGrammar T) Spaces (.str [' ']) := by
  intro s k ts r k' h
  obtain ⟨-, -, rfl⟩ := yes_str.1 h
  rw [consumed_append]
  simp [Spaces]
  decide

theorem pushed_sp : pushed Rule.SP = [] := rfl

theorem yaml_pushes (T : CharTables) (r : Rule) (a : Expr Rule) (h : a ∈ pushed ((yamlGrammar T).body r)) (hk : pushesSpaces a = true) :
    Matches (yamlGrammar T) Spaces a := by
  cases r <;> simp [yamlGrammar, Rule.body, pushed, Expr.seqs, Expr.alts, Expr.plus, Rule.NEWLINE, Rule.ANY, pushed_sp] at h <;>
    subst h <;> first | exact spaces_match T | exact space_match T | cases hk

/-- The stacks of derived trees. -/
abbrev YamlStack (r : Rule) (k : List Str) : Prop := Typed Spaces (List.replicate (yamlIndents r) true) k

/-- Consuming a derived tree. -/
theorem good_tree {inp : Str} {t : Tree Rule} (h : Derived (yamlGrammar T) YamlStack inp t) : Good T (BadBlockScalar T inp) t.root (sem t) := by
  induction h with
  | @node r pre s rest k k' us hs hi h hk ih =>
    simp only [sem, Tree.root]
    refine good_act h (fun hn => by rw [hn]; rfl) ?_ ?_ ?_
    · rintro mk hr hp
      have hst : ∃ p l, k = p :: l ∧ Spaces p := by
        rcases hr with rfl | rfl <;>
        · cases k with
          | nil => exact hi.elim
          | cons p l => exact ⟨p, l, rfl, hi.1 rfl⟩
      obtain ⟨p, l, rfl, hsp⟩ := hst
      rw [hs]
      rcases hr with rfl | rfl
      · exact multiline_panic (.inl rfl) hsp h hp pre
      · exact multiline_panic (.inr rfl) hsp h hp pre
    · intro hn
      rw [semKids_fst, hn]
      exact kidsOf_ok r _ (Yes.lang silentKids_ok h)
    · intro x hx
      obtain ⟨t, ht, rfl⟩ := semKids_mem hx
      exact ih t ht
  | eoi h =>
    rename_i r
    cases r <;> first | exact Fine.ok rfl | cases h

end YamlSubset
