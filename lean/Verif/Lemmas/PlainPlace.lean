import Verif.Lemmas.QuotedChain

/-! # What the place of a plain scalar says about it -/

namespace YamlSubset

open Peg Spec

variable {T : CharTables}

theorem semKids_mem {ts : List (Tree Rule)} {x : Rule × Out Val} (h : x ∈ semKids ts) : ∃ t ∈ ts, x = (t.root, sem t) := by
  induction ts with
  | nil => simp [semKids] at h
  | cons t ts ih =>
    obtain ⟨r, text, cs⟩ := t
    simp only [semKids, List.mem_cons] at h
    rcases h with rfl | h
    · exact ⟨.node r text cs, by simp, rfl⟩
    · obtain ⟨t, ht, hx⟩ := ih h
      exact ⟨t, by simp [ht], hx⟩

theorem out_bind_ok {α β : Type} {o : Out α} {f : α → Out β} {b : β} (h : o.bind f = .ok b) : ∃ a, o = .ok a ∧ f a = .ok b := by
  cases o with
  | ok a => exact ⟨a, rfl, h⟩
  | _ => cases h

theorem yaml_of_asYaml {v : Val} {y : Yaml} (h : v.asYaml = .ok y) : v = .yaml y := by
  cases v <;> first | (cases h; rfl) | cases h

/-- A node that passes on the value of its child. -/
theorem pass_ok {children : List Rule} {t : Tree Rule} {y : Yaml} (h : Consume.passYaml children (semKids [t]) = .ok (.yaml y)) :
    sem t = .ok (.yaml y) := by
  obtain ⟨r, text, cs⟩ := t
  simp only [semKids, Consume.passYaml] at h
  split at h
  · obtain ⟨v, hv, h⟩ := out_bind_ok h
    obtain ⟨z, hz, h⟩ := out_bind_ok h
    cases h
    rw [hv, yaml_of_asYaml hz]
  · cases h

theorem pass_node {R : Rule} {text : Str} {us : List (Tree Rule)} {t : Tree Rule} {y : Yaml} (h : sem (.node R text us) = .ok (.yaml y))
    (hR : R = .inline_array_value ∨ R = .inline_array_string ∨ R = .string) (hu : us = [t]) : sem t = .ok (.yaml y) := by
  subst hu
  rcases hR with rfl | rfl | rfl
  · exact pass_ok (show Consume.passYaml _ _ = _ from h)
  · exact pass_ok (show Consume.passYaml _ _ = _ from h)
  · exact pass_ok (show Consume.passYaml _ _ = _ from h)

/-- The value of a node is not a plain scalar. -/
def NotPlain (t : Tree Rule) : Prop := ∀ u, sem t ≠ .ok (.yaml (.unquotedString u))

theorem notPlain_anchor {text cs} : NotPlain (.node .anchor text cs) := by
  intro u h
  simp only [sem, act, Consume.anchor] at h
  split at h
  · obtain ⟨v, -, h⟩ := out_bind_ok h
    obtain ⟨z, -, h⟩ := out_bind_ok h
    cases h
  · cases h

theorem notPlain_array {text cs} : NotPlain (.node .inline_array text cs) := by
  intro u h
  simp only [sem, act, Consume.inlineArray] at h
  obtain ⟨v, -, h⟩ := out_bind_ok h
  cases h

theorem notPlain_hash {text cs} : NotPlain (.node .inline_hash text cs) := by
  intro u h
  simp only [sem, act, Consume.inlineHash] at h
  obtain ⟨v, -, h⟩ := out_bind_ok h
  cases h

theorem notPlain_double {text cs} : NotPlain (.node .double_quoted_string text cs) := by
  intro u h
  simp only [sem, act, Consume.doubleQuotedString] at h
  split at h
  · obtain ⟨v, -, h⟩ := out_bind_ok h
    obtain ⟨z, -, h⟩ := out_bind_ok h
    cases h
  · cases h

theorem notPlain_single {text cs} : NotPlain (.node .single_quoted_string text cs) := by
  intro u h
  simp only [sem, act, Consume.singleQuotedString] at h
  split at h
  · obtain ⟨v, -, h⟩ := out_bind_ok h
    obtain ⟨z, -, h⟩ := out_bind_ok h
    cases h
  · cases h

/-- Where a reference does not match there is none. -/
theorem no_reference {d : Char} {t : Str} {k : List Str} (h : No (yamlGrammar T) (.rule .anchor) ('*' :: d :: t) k) : ¬ NameChar T d := by
  have h := no_rule.1 h
  simp only [yamlGrammar, Rule.body] at h
  rcases no_seq.1 h with h | ⟨_, _, _, h1, h⟩
  · exact absurd ⟨d :: t, rfl⟩ (no_str.1 h)
  · obtain ⟨-, -, h1⟩ := yes_str.1 h1
    simp only [List.cons_append, List.nil_append, List.cons.injEq, true_and] at h1
    subst h1
    have h := no_rule.1 h
    simp only [Rule.body, Expr.plus] at h
    rcases no_seq.1 h with h | ⟨_, _, _, -, h⟩
    · simp only [Expr.alts, no_alt, no_cls, no_lit] at h
      obtain ⟨h1, h2, h3⟩ := h
      have h1 := h1 d t rfl
      have h2 := h2 d t rfl
      rintro (h | h | rfl)
      · rw [h1] at h; cases h
      · rw [h2] at h; cases h
      · exact h3 rfl
    · exact absurd h no_star

theorem trim_start {c : Char} {t : Str} (h : c ≠ ' ') : ∃ v, trimEndMatches (c :: t) ' ' = c :: v := by
  obtain ⟨u, hu, hs, -⟩ := trimEndMatches_append (c :: t) ' '
  cases hv : trimEndMatches (c :: t) ' ' with
  | nil =>
    rw [hv, List.nil_append] at hu
    exact absurd (hs c (by rw [← hu]; simp)) h
  | cons x v =>
    rw [hv] at hu
    simp only [List.cons_append, List.cons.injEq] at hu
    exact ⟨v, by rw [hu.1]⟩

/-- A trimmed prefix is a prefix. -/
theorem trim_prefix {x r u : Str} (h : x = consumed x r ++ r) (hu : u = trimEndMatches (consumed x r) ' ') : ∃ w, x = u ++ w := by
  obtain ⟨v, hv, -⟩ := trimEndMatches_append (consumed x r) ' '
  exact ⟨v ++ r, by rw [hu, ← List.append_assoc, ← hv]; exact h⟩

/-- What the place of a plain scalar in a flow collection says. -/
structure FlowPlace (T : CharTables) (u : Str) : Prop where
  nonempty : u ≠ []
  start : u.head? ≠ some ' '
  notReference : ∀ d t, u = '*' :: d :: t → ¬ NameChar T d

theorem flow_place {x r : Str} {k k' : List Str} {ts : List (Tree Rule)} (h : Yes (yamlGrammar T) (.rule .inline_array_value) x k ts r k')
    (hx : x.head? ≠ some ' ') : ∀ t ∈ ts, ∀ u, sem t = .ok (.yaml (.unquotedString u)) → FlowPlace T u := by
  replace h := yes_rule.1 h; obtain ⟨us, h, rfl⟩ := h
  intro t ht u hu
  obtain rfl := List.mem_singleton.1 (show t ∈ [Tree.node .inline_array_value (consumed x r) us] from ht)
  replace h := yes_alt.1 h; rcases h with h | ⟨hna, h⟩
  · replace h := yes_rule.1 h; obtain ⟨vs, -, rfl⟩ := h
    exact absurd (pass_node (t := .node .anchor _ _) hu (by decide) rfl) (notPlain_anchor u)
  replace h := yes_alt.1 h; rcases h with h | ⟨-, h⟩
  · replace h := yes_rule.1 h; obtain ⟨vs, -, rfl⟩ := h
    exact absurd (pass_node (t := .node .inline_array _ _) hu (by decide) rfl) (notPlain_array u)
  replace h := yes_alt.1 h; rcases h with h | ⟨-, h⟩
  · replace h := yes_rule.1 h; obtain ⟨vs, -, rfl⟩ := h
    exact absurd (pass_node (t := .node .inline_hash _ _) hu (by decide) rfl) (notPlain_hash u)
  replace h := yes_rule.1 h; obtain ⟨vs, h, rfl⟩ := h
  have hu := pass_node (t := .node .inline_array_string _ _) hu (by decide) rfl
  replace h := yes_alt.1 h; rcases h with h | ⟨-, h⟩
  · replace h := yes_rule.1 h; obtain ⟨ws, h, rfl⟩ := h
    have hu := pass_node (t := .node .unquoted_inline_string _ _) hu (by decide) rfl
    have hc := h.consumed_append
    have hu : u = trimEndMatches (consumed x r) ' ' := by
      have hu : Out.ok (Val.yaml (.unquotedString (trimEndMatches (consumed x r) ' '))) = .ok (.yaml (.unquotedString u)) := hu
      cases hu
      rfl
    have hne : ∃ c v, x = c :: v ∧ consumed x r ≠ [] := by
      replace h := yes_seq.1 h; obtain ⟨_, s₁, _, _, h1, h2, -⟩ := h
      replace h1 := yes_rule.1 h1; obtain ⟨_, h1, -⟩ := h1
      replace h1 := yes_not_any.1 h1; obtain ⟨-, ⟨c, rfl⟩, -⟩ := h1
      obtain ⟨w, rfl⟩ := h2.suffix
      exact ⟨c, _, rfl, by rw [consumed_cons]; simp⟩
    obtain ⟨c, v, rfl, hne⟩ := hne
    have hcs : c ≠ ' ' := fun h => hx (by rw [h]; rfl)
    obtain ⟨w, hw⟩ := trim_prefix hc hu
    obtain ⟨z, hz⟩ : ∃ z, u = c :: z := by
      cases hd : consumed (c :: v) r with
      | nil => exact absurd hd hne
      | cons d v' =>
        rw [hd, List.cons_append, List.cons.injEq] at hc
        obtain ⟨z, hz⟩ := trim_start (t := v') hcs
        exact ⟨z, by rw [hu, hd, ← hc.1, hz]⟩
    refine ⟨by rw [hz]; simp, by rw [hz]; simpa using hcs, ?_⟩
    rintro d t rfl
    rw [hw] at hna
    exact no_reference hna
  replace h := yes_alt.1 h; rcases h with h | ⟨-, h⟩
  · replace h := yes_rule.1 h; obtain ⟨ws, -, rfl⟩ := h
    exact absurd (pass_node (t := .node .double_quoted_string _ _) hu (by decide) rfl) (notPlain_double u)
  · replace h := yes_rule.1 h; obtain ⟨ws, -, rfl⟩ := h
    exact absurd (pass_node (t := .node .single_quoted_string _ _) hu (by decide) rfl) (notPlain_single u)

/-- A plain scalar outside flow collections is not a reference. -/
theorem block_place {x r : Str} {k k' : List Str} {us : List (Tree Rule)} (h : Yes (yamlGrammar T) ((yamlGrammar T).body .inline_value) x k us r k') :
    ∀ t ∈ us, ∀ u, sem t = .ok (.yaml (.unquotedString u)) → ∀ d v, u = '*' :: d :: v → ¬ NameChar T d := by
  intro t ht u hu
  replace h := yes_alt.1 h; rcases h with h | ⟨hna, h⟩
  · replace h := yes_rule.1 h; obtain ⟨vs, -, rfl⟩ := h
    obtain rfl := List.mem_singleton.1 (show t ∈ [Tree.node .anchor (consumed x r) vs] from ht)
    exact absurd hu (notPlain_anchor u)
  replace h := yes_alt.1 h; rcases h with h | ⟨-, h⟩
  · replace h := yes_rule.1 h; obtain ⟨vs, -, rfl⟩ := h
    obtain rfl := List.mem_singleton.1 (show t ∈ [Tree.node .inline_array (consumed x r) vs] from ht)
    exact absurd hu (notPlain_array u)
  replace h := yes_alt.1 h; rcases h with h | ⟨-, h⟩
  · replace h := yes_rule.1 h; obtain ⟨vs, -, rfl⟩ := h
    obtain rfl := List.mem_singleton.1 (show t ∈ [Tree.node .inline_hash (consumed x r) vs] from ht)
    exact absurd hu (notPlain_hash u)
  replace h := yes_rule.1 h; obtain ⟨vs, h, rfl⟩ := h
  obtain rfl := List.mem_singleton.1 (show t ∈ [Tree.node .string (consumed x r) vs] from ht)
  replace h := yes_alt.1 h; rcases h with h | ⟨-, h⟩
  · replace h := yes_rule.1 h; obtain ⟨ws, h, rfl⟩ := h
    have hu := pass_node (t := .node .unquoted_string _ _) hu (by decide) rfl
    have hu : u = trimEndMatches (consumed x r) ' ' := by
      have hu : Out.ok (Val.yaml (.unquotedString (trimEndMatches (consumed x r) ' '))) = .ok (.yaml (.unquotedString u)) := hu
      cases hu
      rfl
    obtain ⟨w, hw⟩ := trim_prefix h.consumed_append hu
    rintro d t rfl
    rw [hw] at hna
    exact no_reference hna
  replace h := yes_alt.1 h; rcases h with h | ⟨-, h⟩
  · replace h := yes_rule.1 h; obtain ⟨ws, -, rfl⟩ := h
    exact absurd (pass_node (t := .node .double_quoted_string _ _) hu (by decide) rfl) (notPlain_double u)
  · replace h := yes_rule.1 h; obtain ⟨ws, -, rfl⟩ := h
    exact absurd (pass_node (t := .node .single_quoted_string _ _) hu (by decide) rfl) (notPlain_single u)

/-- What is left after spaces does not start with a space. -/
theorem after_spaces {s r : Str} {k k' : List Str} {ts : List (Tree Rule)} (h : Yes (yamlGrammar T) (.rule .spaces) s k ts r k') :
    ts = [] ∧ r.head? ≠ some ' ' := by
  replace h := yes_rule.1 h; obtain ⟨us, h, rfl⟩ := h
  show ts = [] ∧ List.head? r ≠ some ' '
  refine Yes.star_ind (r := r) (k' := k') (C := fun _ _ ts => ts = [] ∧ r.head? ≠ some ' ') ?_ ?_ h
  · intro hn
    have hn := no_rule.1 hn
    exact ⟨rfl, no_lit.1 (no_alt.1 hn).1⟩
  · rintro s k ts₁ s₁ k₁ ts₂ h1 - ⟨rfl, h2⟩
    replace h1 := yes_rule.1 h1; obtain ⟨us, h1, rfl⟩ := h1
    replace h1 := yes_alt.1 h1; rcases h1 with h1 | ⟨-, h1⟩
    · replace h1 := yes_str.1 h1; obtain ⟨rfl, -⟩ := h1
      exact ⟨rfl, h2⟩
    · obtain ⟨-, rfl, -⟩ := yes_newline h1
      exact ⟨rfl, h2⟩

/-- The plain scalars in a flow sequence. -/
theorem array_place {x r : Str} {k k' : List Str} {us : List (Tree Rule)} (h : Yes (yamlGrammar T) ((yamlGrammar T).body .inline_array) x k us r k') :
    ∀ t ∈ us, ∀ u, sem t = .ok (.yaml (.unquotedString u)) → FlowPlace T u := by
  replace h := yes_seq.1 h; obtain ⟨_, _, _, _, h1, h, rfl⟩ := h
  replace h1 := yes_str.1 h1; obtain ⟨rfl, -⟩ := h1
  replace h := yes_seq.1 h; obtain ⟨ts, _, _, _, h1, h, rfl⟩ := h
  replace h := yes_seq.1 h; obtain ⟨_, _, _, _, h2, h, rfl⟩ := h
  replace h2 := after_spaces h2; obtain ⟨rfl, -⟩ := h2
  replace h := yes_str.1 h; obtain ⟨rfl, -⟩ := h
  simp only [List.nil_append, List.append_nil]
  replace h1 := yes_opt.1 h1; rcases h1 with h | ⟨-, rfl, -⟩
  · replace h := yes_seq.1 h; obtain ⟨_, _, _, _, h1, h, rfl⟩ := h
    replace h1 := after_spaces h1; obtain ⟨rfl, hx⟩ := h1
    replace h := yes_seq.1 h; obtain ⟨vs, _, _, ws, h1, h, rfl⟩ := h
    have hv := flow_place h1 hx
    intro t ht
    rcases List.mem_append.1 ht with ht | ht
    · cases ht
    rcases List.mem_append.1 ht with ht | ht
    · exact hv t ht
    · refine Yes.star_ind (C := fun _ _ ws => ∀ t ∈ ws, ∀ u, sem t = .ok (.yaml (.unquotedString u)) → FlowPlace T u) ?_ ?_ h t ht
      · intro _ t ht; cases ht
      · intro s k ts₁ s₁ k₁ ts₂ h1 _ ih t ht
        rcases List.mem_append.1 ht with ht | ht
        · replace h1 := yes_seq.1 h1; obtain ⟨_, _, _, _, h2, h1, rfl⟩ := h1
          replace h2 := after_spaces h2; obtain ⟨rfl, -⟩ := h2
          replace h1 := yes_seq.1 h1; obtain ⟨_, _, _, _, h2, h1, rfl⟩ := h1
          replace h2 := yes_str.1 h2; obtain ⟨rfl, -⟩ := h2
          replace h1 := yes_seq.1 h1; obtain ⟨_, _, _, _, h2, h1, rfl⟩ := h1
          replace h2 := after_spaces h2; obtain ⟨rfl, hx⟩ := h2
          exact flow_place h1 hx t ht
        · exact ih t ht
  · intro t ht; cases ht

/-- A plain scalar in a flow mapping. -/
theorem hash_place {x r : Str} {k k' : List Str} {us : List (Tree Rule)}
    (h : Yes (yamlGrammar T) ((yamlGrammar T).body .inline_hash_element) x k us r k') :
    ∀ t ∈ us, ∀ u, sem t = .ok (.yaml (.unquotedString u)) → FlowPlace T u := by
  replace h := yes_seq.1 h; obtain ⟨_, _, _, _, h1, h, rfl⟩ := h
  replace h1 := yes_rule.1 h1; obtain ⟨vs, -, rfl⟩ := h1
  replace h := yes_seq.1 h; obtain ⟨_, _, _, _, h1, h, rfl⟩ := h
  replace h1 := after_spaces h1; obtain ⟨rfl, -⟩ := h1
  replace h := yes_seq.1 h; obtain ⟨_, _, _, _, h1, h, rfl⟩ := h
  replace h1 := yes_str.1 h1; obtain ⟨rfl, -⟩ := h1
  replace h := yes_seq.1 h; obtain ⟨_, _, _, _, h1, h, rfl⟩ := h
  replace h1 := after_spaces h1; obtain ⟨rfl, hx⟩ := h1
  intro t ht u hu
  rcases List.mem_append.1 ht with ht | ht
  · obtain rfl := List.mem_singleton.1 (show t ∈ [Tree.node .hash_key _ vs] from ht)
    simp [sem, act] at hu
  · exact flow_place h hx t (by simpa using ht) u hu

end YamlSubset
