import Verif.Lemmas.VisibleTree

/-! # Every node of a parse tree says what its text shows -/

namespace YamlSubset

open Peg Spec

variable {T : CharTables}

local notation "Gy" => yamlGrammar T

theorem seen_yaml_like {r : Rule} (h : r ∈ ([.hash, .array, .string_multiline_literal, .string_multiline_folded, .inline_value, .anchor, .inline_array,
    .inline_hash, .string, .inline_array_string, .unquoted_string, .unquoted_inline_string, .double_quoted_string, .single_quoted_string,
    .block_array, .alternative_array, .alternative_hash, .yaml_value, .inline_array_value, .document] : List Rule)) :
    ∀ v x, Seen r v x → ∃ y, v = .yaml y ∧ Shown y x := by
  simp only [List.mem_cons, List.not_mem_nil, or_false] at h
  rcases h with rfl | rfl | rfl | rfl | rfl | rfl | rfl | rfl | rfl | rfl | rfl | rfl | rfl | rfl | rfl | rfl | rfl | rfl | rfl | rfl <;>
    exact fun _ _ h => h

theorem seen_multiline {c : Char} (hc : isWhitespace c = false) {mk : List Str → BlockChomping → Yaml}
    (hmk : ∀ ls ch x, BlockShown ls ch x → Shown (mk ls ch) (c :: x)) {us x}
    (h : spells (.seqs [.str [c], .opt (.rule .string_block_chomping), .rule .string_multiline_indent, .rule .string_multiline_content]) us x)
    (hk : ∀ t ∈ us, Sees t) {v} (hv : Consume.stringMultiline mk (semKids us) = .ok v) : ∃ y, v = .yaml y ∧ Shown y x := by
  obtain ⟨x', rfl, h1⟩ := spells_lit hc h
  obtain ⟨us₁, x₁, us₂, x₂, h2, h3, rfl, rfl⟩ := h1
  obtain ⟨t₂, us₃, x₃, rfl, r₂, rfl, h4⟩ := spells_cons (by decide) h3
  obtain ⟨t₃, rfl, r₃, rfl⟩ := spells_one (by decide) h4
  have hfin : ∀ {w₂ w₃ i cs ls} {ch : BlockChomping}, sem t₂ = .ok w₂ → w₂.asOptNat = .ok i → sem t₃ = .ok w₃ → w₃.asStrs = .ok cs →
      cleanMultilineStrings i cs = .ok ls → BlockShown ls ch (chompingShown ch ++ (visible t₂.text ++ visible t₃.text)) := by
    intro w₂ w₃ i cs ls ch e₁ e₂ e₃ e₄ e₅
    obtain rfl := asOptNat_ok e₂
    obtain rfl := asStrs_ok e₄
    obtain ⟨k₁, k₂⟩ := (hk t₂ (by simp)).ok r₂ e₁
    obtain ⟨ls', k₃, k₄, k₅, k₆⟩ := (hk t₃ (by simp)).ok r₃ e₃
    cases k₃
    rw [k₄, ← List.append_assoc]
    exact seen_clean k₁ k₂ k₅ k₆ e₅
  rcases spells_opt_one (by decide) h2 with ⟨rfl, rfl⟩ | ⟨t₁, rfl, r₁, rfl⟩
  · simp only [List.nil_append, semKids_cons, semKids, r₂, r₃, Consume.stringMultiline] at hv
    obtain ⟨w₂, e₁, hv⟩ := Out.ok_of_bind hv
    obtain ⟨i, e₂, hv⟩ := Out.ok_of_bind hv
    obtain ⟨w₃, e₃, hv⟩ := Out.ok_of_bind hv
    obtain ⟨cs, e₄, hv⟩ := Out.ok_of_bind hv
    obtain ⟨ls, e₅, hv⟩ := Out.ok_of_bind hv
    cases hv
    exact ⟨_, rfl, hmk _ _ _ (hfin (ch := .clip) e₁ e₂ e₃ e₄ e₅)⟩
  · simp only [List.cons_append, List.nil_append, semKids_cons, semKids, r₁, r₂, r₃, Consume.stringMultiline] at hv
    obtain ⟨w₁, e₆, hv⟩ := Out.ok_of_bind hv
    obtain ⟨ch, e₇, hv⟩ := Out.ok_of_bind hv
    obtain ⟨w₂, e₁, hv⟩ := Out.ok_of_bind hv
    obtain ⟨i, e₂, hv⟩ := Out.ok_of_bind hv
    obtain ⟨w₃, e₃, hv⟩ := Out.ok_of_bind hv
    obtain ⟨cs, e₄, hv⟩ := Out.ok_of_bind hv
    obtain ⟨ls, e₅, hv⟩ := Out.ok_of_bind hv
    cases hv
    obtain rfl := asChomping_ok e₇
    obtain ⟨ch', k₁, k₂⟩ := (hk t₁ (by simp)).ok r₁ e₆
    cases k₁
    rw [k₂]
    exact ⟨_, rfl, hmk _ _ _ (hfin (ch := ch) e₁ e₂ e₃ e₄ e₅)⟩

theorem seen_content {us x} (h : spells (Rule.body T .string_multiline_content) us x) (hk : ∀ t ∈ us, Sees t) {v}
    (hv : Consume.stringMultilineContent (semKids us) = .ok v) :
    ∃ ls, v = .strs ls ∧ x = ls.flatMap visible ∧ ls ≠ [] ∧ ∀ l ∈ ls, LineText l := by
  have g1 := (spells_seq_nil spells_blanknl _ _).1 h
  obtain ⟨t₁, us₁, x₁, rfl, r₁, rfl, g2⟩ := spells_cons (by decide) g1
  obtain ⟨us₂, x₂, us₃, x₃, g3, g4, rfl, rfl⟩ := g2
  have g5 := (spells_seq_nil spells_peek _ _).1 g3
  have g6 := (spells_seq_nil spells_pushed_space _ _).1 g5
  obtain ⟨t₂, rfl, r₂, rfl⟩ := spells_one (by decide) g6
  obtain ⟨ts, us₄, x₄, rfl, r₃, rfl, g7⟩ := spells_star_then (q := .string_multiline_content_part) (by decide) (fun _ _ h => h) g4
  obtain ⟨t₄, us₅, x₅, rfl, r₄, rfl, g8⟩ := spells_cons (by decide) g7
  obtain ⟨rfl, rfl⟩ := (spells_drop _ _).1 g8
  simp only [List.cons_append, List.nil_append, semKids_cons, r₁, r₂, Consume.stringMultilineContent] at hv
  obtain ⟨w₁, e₁, hv⟩ := Out.ok_of_bind hv
  obtain ⟨es, e₂, hv⟩ := Out.ok_of_bind hv
  obtain ⟨w₂, e₃, hv⟩ := Out.ok_of_bind hv
  obtain ⟨b, e₄, hv⟩ := Out.ok_of_bind hv
  obtain ⟨p, e₅, hv⟩ := Out.ok_of_bind hv
  cases hv
  obtain ⟨m₁, w₃, m₂, m₃⟩ := manyThen_seen r₄ e₅
  obtain ⟨k₁, k₁'⟩ := (hk t₁ (by simp)).strs (.inl r₁) e₁ e₂
  obtain ⟨k₂, k₂'⟩ := (hk t₂ (by simp)).line r₂ e₃ e₄
  obtain ⟨k₄, k₄'⟩ := (hk t₄ (by simp)).strs (.inr (.inl r₄)) m₂ m₃
  obtain ⟨xs, k₅, k₆, k₇⟩ := many_seen (Q := fun ls x => x = ls.flatMap visible ∧ ∀ l ∈ ls, LineText l) (by
    intro t ht w ls hw ha
    exact (hk t (by simp [ht])).strs (.inr (.inr (r₃ t ht))) hw ha) m₁
  have k₈ : (ts.flatMap fun t => visible t.text) = p.1.flatten.flatMap visible := by
    rw [flatMap_map, k₆, k₅]
    clear k₅ k₆ e₅ m₁
    induction xs with
    | nil => rfl
    | cons q xs ih =>
      rw [List.map_cons, List.flatten_cons, (k₇ q (by simp)).1, ih fun q hq => k₇ q (by simp [hq])]
      simp [List.flatMap_append]
  refine ⟨_, rfl, ?_, by simp, ?_⟩
  · rw [k₁, k₂, k₄, k₈]; simp [List.flatMap_append]
  · intro l hl
    simp only [List.mem_append, List.mem_singleton, List.mem_flatten] at hl
    rcases hl with ((hl | rfl) | ⟨q, hq, hl⟩) | hl
    · exact k₁' l hl
    · exact k₂'
    · rw [k₅] at hq
      obtain ⟨q', hq', rfl⟩ := List.mem_map.1 hq
      exact (k₇ q' hq').2 l hl
    · exact k₄' l hl

theorem seen_document {us x} (h : spells (Rule.body T .yaml) us x) (hk : ∀ t ∈ us, Sees t) {v} (hv : Consume.yaml (semKids us) = .ok v) :
    ∃ d, v = .doc d ∧ DocumentShown d x := by
  have g1 := (spells_seq_nil spells_soi _ _).1 h
  obtain ⟨t₁, us₁, x₁, rfl, r₁, rfl, g2⟩ := spells_cons (by decide) g1
  obtain ⟨us₂, x₂, us₃, x₃, ⟨rfl, rfl⟩, g4, rfl, rfl⟩ := g2
  have g5 := (spells_seq_nil spells_blanknl _ _).1 g4
  obtain ⟨t₂, us₂, x₂, rfl, r₂, rfl, g6⟩ := spells_cons (by decide) g5
  obtain ⟨t₃, us₄, x₄, rfl, r₃, rfl, g7⟩ := spells_cons (by decide) g6
  have g8 := (spells_seq_nil spells_blank _ _).1 g7
  obtain ⟨ts, us₅, x₅, rfl, r₄, rfl, g9⟩ := spells_star_then (q := .comment) (by decide) (fun _ _ h => by
    obtain ⟨_, _, _, _, h1, h2, rfl, rfl⟩ := h
    obtain ⟨rfl, rfl⟩ := (spells_blank _ _).1 h2
    simpa using h1) g8
  have g10 := (spells_seq_nil spells_spaces _ _).1 g9
  obtain ⟨rfl, rfl⟩ := (spells_eoi _ _).1 g10
  simp only [semKids_cons, r₁, r₂, r₃, Consume.yaml] at hv
  obtain ⟨w₁, e₁, hv⟩ := Out.ok_of_bind hv
  obtain ⟨before, e₂, hv⟩ := Out.ok_of_bind hv
  obtain ⟨w₂, e₃, hv⟩ := Out.ok_of_bind hv
  obtain ⟨cs, e₄, hv⟩ := Out.ok_of_bind hv
  obtain ⟨w₃, e₅, hv⟩ := Out.ok_of_bind hv
  obtain ⟨root, e₆, hv⟩ := Out.ok_of_bind hv
  obtain ⟨p, e₇, hv⟩ := Out.ok_of_bind hv
  cases hv
  obtain ⟨m₁, -⟩ := manyThen_seen (t := .node .EOI [] []) (last := .EOI) rfl e₇
  obtain rfl := asStrs_ok e₂
  obtain rfl := asYaml_ok e₆
  obtain ⟨_, k₁, k₁'⟩ := (hk t₁ (by simp)).ok r₁ e₁
  cases k₁
  have k₂ := (hk t₂ (by simp)).comments r₂ e₃ e₄
  obtain ⟨_, k₃, k₃'⟩ := (hk t₃ (by simp)).ok r₃ e₅
  cases k₃
  obtain ⟨xs, k₅, k₆, k₇⟩ := many_seen (Q := fun s x => x = '#' :: visible s) (by
    intro t ht w s hw ha
    exact (hk t (by simp [ht])).comment (r₄ t ht) hw ha) m₁
  have k₈ : (ts.flatMap fun t => visible t.text) = commentsShown p.1 := by
    rw [flatMap_map, k₆, k₅, commentsShown, List.flatMap_map, flatMap_map]
    congr 1
    exact List.map_congr_left fun q hq => k₇ q hq
  refine ⟨_, rfl, ?_⟩
  rw [k₁', k₂, k₈]
  have hd : (['-', '-', '-'] : Str).filter ink = ['-', '-', '-'] := by decide
  rw [hd]
  have := DocumentShown.mk (leading := before) (pre := cs) (post := p.1) k₃'
  simpa using this

/-- The consumer of every rule. -/
theorem sees_act {r : Rule} {s rest : Str} {k k' : List Str} {us : List (Tree Rule)} (h : Yes Gy ((Gy).body r) s k us rest k')
    (hi : YamlStack r k) (hk : ∀ t ∈ keptKids r.kind us, Sees t) {v : Val}
    (hv : act r (consumed s rest) (semKids (keptKids r.kind us)) = .ok v) : Seen r v (visible (consumed s rest)) := by
  have hs := body_spells hi h
  cases r
  case EOI => exact ((spells_eoi _ _).1 hs).2
  case comment_text | alias_name | double_quote_text | single_quote_text => cases hv; exact ⟨_, rfl, rfl⟩
  case hash_key => cases hv; exact ⟨_, rfl, (visible_trimEnd _).symm⟩
  case block_string => cases hv; exact ⟨_, rfl, rfl, text_block_string h⟩
  case unquoted_string | unquoted_inline_string => exact seen_unquoted hv
  case removable_newline => exact hs.2.trans (by decide)
  case blank_lines =>
    obtain ⟨n, hn⟩ := text_blank_lines h
    simp only [act, Consume.blankLines] at hv
    split at hv
    · cases hv
    · cases hv
      refine ⟨⟨_, rfl⟩, ?_⟩
      rw [hn, visible_white]
      intro c hc
      rw [(List.mem_replicate.1 hc).2]; decide
  case escaped_double_quote_char_value =>
    obtain ⟨c, hc, hm⟩ := text_escaped_double h
    rw [hc] at hv ⊢
    exact seen_dqEsc hm hv
  case single_quote =>
    rw [text_single_quote h] at hv ⊢
    cases hv
    exact ⟨_, rfl, by decide⟩
  case string_block_chomping =>
    rcases text_chomping h with hc | hc <;> rw [hc] at hv ⊢ <;> cases hv
    · exact ⟨_, rfl, by decide⟩
    · exact ⟨_, rfl, by decide⟩
  case string_multiline_indent => exact seen_indent (yes_rule.2 ⟨us, h, rfl⟩) hv
  case block_empty_lines =>
    cases hv
    refine ⟨_, rfl, ?_, replicate_lines _⟩
    rw [((spells_newlines _ _).1 hs).2, visible_blank]
  case string_multiline_trailing =>
    cases hv
    refine ⟨_, rfl, ?_, replicate_lines _⟩
    have := (spells_star_nil (e := .seq Rule.NEWLINE (.and Rule.NEWLINE)) (by
      intro ts x; rw [spells_seq_nil spells_newline, spells_and]) _ _).1 hs
    rw [this.2, visible_blank]
  case comment =>
    obtain ⟨t, rfl, ht, hx⟩ := (spells_silent rfl _ _).1 hs
    obtain ⟨s', h1, h2⟩ := seen_oneStr (child := .comment_text) (fun _ _ h => h) ht (hk t (by simp [keptKids, Rule.kind])) hv
    exact ⟨s', h1, by rw [hx, h2]⟩
  case commentnl =>
    obtain ⟨us₁, x₁, us₂, x₂, g1, g2, rfl, hx⟩ := hs
    obtain ⟨t, rfl, ht, rfl⟩ := (spells_silent rfl _ _).1 g1
    obtain ⟨rfl, rfl⟩ := (spells_blank _ _).1 g2
    obtain ⟨s', h1, h2⟩ := seen_oneStr (child := .comment_text) (fun _ _ h => h) ht (hk t (by simp [keptKids, Rule.kind])) hv
    exact ⟨s', h1, by rw [hx, h2, List.append_nil]⟩
  case alias =>
    obtain ⟨x', hx, g1⟩ := spells_lit (by decide) hs
    obtain ⟨t, rfl, ht, rfl⟩ := spells_one (by decide) g1
    obtain ⟨s', h1, h2⟩ := seen_oneStr (child := .alias_name) (fun _ _ h => h) ht (hk t (by simp [keptKids, Rule.kind])) hv
    exact ⟨s', h1, by rw [hx, h2]⟩
  case anchor =>
    obtain ⟨x', hx, g1⟩ := spells_lit (by decide) hs
    obtain ⟨t, rfl, ht, rfl⟩ := spells_one (by decide) g1
    have ks := hk t (by simp [keptKids, Rule.kind])
    simp only [keptKids, Rule.kind, act, semKids_cons, semKids, ht, Consume.anchor] at hv
    obtain ⟨w, e₁, hv⟩ := Out.ok_of_bind hv
    obtain ⟨a, e₂, hv⟩ := Out.ok_of_bind hv
    cases hv
    obtain rfl := asStr_ok e₂
    obtain ⟨_, h1, h2⟩ := ks.ok ht e₁
    cases h1
    exact ⟨_, rfl, by rw [hx, h2]; exact .reference⟩
  case inline_hash_element =>
    obtain ⟨t₁, us₁, x₁, rfl, r₁, hx, g1⟩ := spells_cons (by decide) hs
    have g2 := (spells_seq_nil spells_spaces _ _).1 g1
    obtain ⟨x', rfl, g3⟩ := spells_lit (by decide) g2
    have g4 := (spells_seq_nil spells_spaces _ _).1 g3
    obtain ⟨t₂, rfl, r₂, rfl⟩ := spells_one (by decide) g4
    have k₁ := hk t₁ (by simp [keptKids, Rule.kind])
    have k₂ := hk t₂ (by simp [keptKids, Rule.kind])
    simp only [keptKids, Rule.kind, act, semKids_cons, semKids, r₁, r₂, Consume.inlineHashElement] at hv
    obtain ⟨w, e₁, hv⟩ := Out.ok_of_bind hv
    obtain ⟨a, e₂, hv⟩ := Out.ok_of_bind hv
    obtain ⟨w', e₃, hv⟩ := Out.ok_of_bind hv
    obtain ⟨y, e₄, hv⟩ := Out.ok_of_bind hv
    cases hv
    obtain rfl := asYaml_ok e₄
    obtain ⟨_, h1, h2⟩ := k₂.ok r₂ e₃
    cases h1
    exact ⟨_, _, _, rfl, by rw [hx, k₁.key r₁ e₁ e₂], h2⟩
  case inline_hash => exact seen_inline_hash hs hk hv
  case inline_array => exact seen_inline_array hs hk hv
  case double_quote_without_escape =>
    rcases hs with hs | hs | hs | hs
    · obtain ⟨t, rfl, ht, hx⟩ := (spells_silent rfl _ _).1 hs
      have ks := hk t (by simp [keptKids, Rule.kind])
      simp only [keptKids, Rule.kind, act, semKids_cons, semKids, ht, Consume.doubleQuoteWithoutEscape] at hv
      obtain ⟨w, e₁, hv⟩ := Out.ok_of_bind hv
      obtain ⟨c, e₂, hv⟩ := Out.ok_of_bind hv
      cases hv
      obtain rfl := asDqEsc_ok e₂
      obtain ⟨_, h1, h2⟩ := ks.ok ht e₁
      cases h1
      exact ⟨_, rfl, by rw [hx, h2]⟩
    · obtain ⟨t, rfl, ht, hx⟩ := spells_one (by decide) hs
      have ks := hk t (by simp [keptKids, Rule.kind])
      simp only [keptKids, Rule.kind, act, semKids_cons, semKids, ht, Consume.doubleQuoteWithoutEscape] at hv
      obtain ⟨w, e₁, hv⟩ := Out.ok_of_bind hv
      obtain ⟨c, e₂, hv⟩ := Out.ok_of_bind hv
      cases hv
      obtain ⟨-, h2⟩ := ks.ok ht e₁
      exact ⟨_, rfl, by rw [hx, h2]; rfl⟩
    · obtain ⟨t, rfl, ht, hx⟩ := spells_one (by decide) hs
      have ks := hk t (by simp [keptKids, Rule.kind])
      simp only [keptKids, Rule.kind, act, semKids_cons, semKids, ht, Consume.doubleQuoteWithoutEscape] at hv
      obtain ⟨w, e₁, hv⟩ := Out.ok_of_bind hv
      cases hv
      have h2 := ks.ok ht e₁
      exact ⟨_, rfl, by rw [hx]; exact h2⟩
    · obtain ⟨t, rfl, ht, hx⟩ := spells_one (by decide) hs
      have ks := hk t (by simp [keptKids, Rule.kind])
      simp only [keptKids, Rule.kind, act, semKids_cons, semKids, ht, Consume.doubleQuoteWithoutEscape] at hv
      obtain ⟨w, e₁, hv⟩ := Out.ok_of_bind hv
      obtain ⟨c, e₂, hv⟩ := Out.ok_of_bind hv
      cases hv
      obtain rfl := asStr_ok e₂
      obtain ⟨_, h1, h2⟩ := ks.ok ht e₁
      cases h1
      exact ⟨_, rfl, by rw [hx, h2]; rfl⟩
  case double_quote_content =>
    obtain ⟨hr, hx⟩ := spells_star_rule (q := .double_quote_without_escape) (by decide) hs
    obtain ⟨ps, e₁, hv⟩ := Out.ok_of_bind hv
    cases hv
    obtain ⟨xs, h1, h2, h3⟩ := many_seen (us := us) (Q := fun p x => x = dqShown p) (by
      intro t ht w p hw ha
      obtain rfl := asDqPart_ok ha
      obtain ⟨_, h1, h2⟩ := (hk t ht).ok (hr t ht) hw
      cases h1
      exact h2) e₁
    refine ⟨_, rfl, ?_⟩
    rw [hx, flatMap_map, h2, h1, List.flatMap_map, flatMap_map]
    congr 1
    exact List.map_congr_left fun q hq => h3 q hq
  case double_quoted_string =>
    obtain ⟨t, rfl, ht, hx⟩ := yes_quoted (q := .double_quote_content) rfl rfl (by decide) h
    have ks := hk t (by simp [keptKids, Rule.kind])
    simp only [keptKids, Rule.kind, act, semKids_cons, semKids, ht, Consume.doubleQuotedString] at hv
    obtain ⟨w, e₁, hv⟩ := Out.ok_of_bind hv
    obtain ⟨ps, e₂, hv⟩ := Out.ok_of_bind hv
    cases hv
    obtain rfl := asDqParts_ok e₂
    obtain ⟨_, h1, h2⟩ := ks.ok ht e₁
    cases h1
    exact ⟨_, rfl, by rw [hx, h2]; exact .double⟩
  case escaped_single_quote_char =>
    rcases hs with hs | hs | hs | hs
    · obtain ⟨t, rfl, ht, hx⟩ := (spells_silent rfl _ _).1 hs
      have ks := hk t (by simp [keptKids, Rule.kind])
      simp only [keptKids, Rule.kind, act, semKids_cons, semKids, ht, Consume.escapedSingleQuoteChar] at hv
      obtain ⟨w, e₁, hv⟩ := Out.ok_of_bind hv
      obtain ⟨c, e₂, hv⟩ := Out.ok_of_bind hv
      cases hv
      obtain rfl := asSqEsc_ok e₂
      obtain ⟨_, h1, h2⟩ := ks.ok ht e₁
      cases h1
      exact ⟨_, rfl, by rw [hx, h2]⟩
    · obtain ⟨t, rfl, ht, hx⟩ := spells_one (by decide) hs
      have ks := hk t (by simp [keptKids, Rule.kind])
      simp only [keptKids, Rule.kind, act, semKids_cons, semKids, ht, Consume.escapedSingleQuoteChar] at hv
      obtain ⟨w, e₁, hv⟩ := Out.ok_of_bind hv
      obtain ⟨c, e₂, hv⟩ := Out.ok_of_bind hv
      cases hv
      obtain ⟨-, h2⟩ := ks.ok ht e₁
      exact ⟨_, rfl, by rw [hx, h2]; rfl⟩
    · obtain ⟨t, rfl, ht, hx⟩ := spells_one (by decide) hs
      have ks := hk t (by simp [keptKids, Rule.kind])
      simp only [keptKids, Rule.kind, act, semKids_cons, semKids, ht, Consume.escapedSingleQuoteChar] at hv
      obtain ⟨w, e₁, hv⟩ := Out.ok_of_bind hv
      cases hv
      have h2 := ks.ok ht e₁
      exact ⟨_, rfl, by rw [hx]; exact h2⟩
    · obtain ⟨t, rfl, ht, hx⟩ := spells_one (by decide) hs
      have ks := hk t (by simp [keptKids, Rule.kind])
      simp only [keptKids, Rule.kind, act, semKids_cons, semKids, ht, Consume.escapedSingleQuoteChar] at hv
      obtain ⟨w, e₁, hv⟩ := Out.ok_of_bind hv
      obtain ⟨c, e₂, hv⟩ := Out.ok_of_bind hv
      cases hv
      obtain rfl := asStr_ok e₂
      obtain ⟨_, h1, h2⟩ := ks.ok ht e₁
      cases h1
      exact ⟨_, rfl, by rw [hx, h2]; rfl⟩
  case single_quote_content =>
    obtain ⟨hr, hx⟩ := spells_star_rule (q := .escaped_single_quote_char) (by decide) hs
    obtain ⟨ps, e₁, hv⟩ := Out.ok_of_bind hv
    cases hv
    obtain ⟨xs, h1, h2, h3⟩ := many_seen (us := us) (Q := fun p x => x = sqShown p) (by
      intro t ht w p hw ha
      obtain rfl := asSqPart_ok ha
      obtain ⟨_, h1, h2⟩ := (hk t ht).ok (hr t ht) hw
      cases h1
      exact h2) e₁
    refine ⟨_, rfl, ?_⟩
    rw [hx, flatMap_map, h2, h1, List.flatMap_map, flatMap_map]
    congr 1
    exact List.map_congr_left fun q hq => h3 q hq
  case single_quoted_string =>
    obtain ⟨t, rfl, ht, hx⟩ := yes_quoted (q := .single_quote_content) rfl rfl (by decide) h
    have ks := hk t (by simp [keptKids, Rule.kind])
    simp only [keptKids, Rule.kind, act, semKids_cons, semKids, ht, Consume.singleQuotedString] at hv
    obtain ⟨w, e₁, hv⟩ := Out.ok_of_bind hv
    obtain ⟨ps, e₂, hv⟩ := Out.ok_of_bind hv
    cases hv
    obtain rfl := asSqParts_ok e₂
    obtain ⟨_, h1, h2⟩ := ks.ok ht e₁
    cases h1
    exact ⟨_, rfl, by rw [hx, h2]; exact .single⟩
  case inline_array_string =>
    have hone : ∃ t, us = [t] ∧ visible (consumed s rest) = visible t.text := by
      rcases hs with hs | hs | hs <;>
      · obtain ⟨t, ht, -, hx⟩ := spells_one (by decide) hs
        exact ⟨t, ht, hx⟩
    obtain ⟨t, rfl, hx⟩ := hone
    rw [hx]
    exact seen_pass (fun r hr => seen_yaml_like (by revert hr; revert r; decide)) (hk t (by simp [keptKids, Rule.kind])) hv
  case inline_array_value =>
    have hone : ∃ t, us = [t] ∧ visible (consumed s rest) = visible t.text := by
      rcases hs with hs | hs | hs | hs <;>
      · obtain ⟨t, ht, -, hx⟩ := spells_one (by decide) hs
        exact ⟨t, ht, hx⟩
    obtain ⟨t, rfl, hx⟩ := hone
    rw [hx]
    exact seen_pass (fun r hr => seen_yaml_like (by revert hr; revert r; decide)) (hk t (by simp [keptKids, Rule.kind])) hv
  case string =>
    have hone : ∃ t, us = [t] ∧ visible (consumed s rest) = visible t.text := by
      rcases hs with hs | hs | hs <;>
      · obtain ⟨t, ht, -, hx⟩ := spells_one (by decide) hs
        exact ⟨t, ht, hx⟩
    obtain ⟨t, rfl, hx⟩ := hone
    rw [hx]
    exact seen_pass (fun r hr => seen_yaml_like (by revert hr; revert r; decide)) (hk t (by simp [keptKids, Rule.kind])) hv
  case inline_value =>
    have hone : ∃ t, us = [t] ∧ visible (consumed s rest) = visible t.text := by
      rcases hs with hs | hs | hs | hs <;>
      · obtain ⟨t, ht, -, hx⟩ := spells_one (by decide) hs
        exact ⟨t, ht, hx⟩
    obtain ⟨t, rfl, hx⟩ := hone
    rw [hx]
    exact seen_pass (fun r hr => seen_yaml_like (by revert hr; revert r; decide)) (hk t (by simp [keptKids, Rule.kind])) hv
  case array =>
    have hone : ∃ t, us = [t] ∧ visible (consumed s rest) = visible t.text := by
      rcases hs with hs | hs <;>
      · obtain ⟨t, ht, -, hx⟩ := spells_one (by decide) hs
        exact ⟨t, ht, hx⟩
    obtain ⟨t, rfl, hx⟩ := hone
    rw [hx]
    exact seen_pass (fun r hr => seen_yaml_like (by revert hr; revert r; decide)) (hk t (by simp [keptKids, Rule.kind])) hv
  case yaml_value =>
    have hone : ∃ t, us = [t] ∧ visible (consumed s rest) = visible t.text := by
      rcases hs with hs | hs | hs | hs | hs <;>
      · obtain ⟨t, ht, -, hx⟩ := spells_one (by decide) hs
        exact ⟨t, ht, hx⟩
    obtain ⟨t, rfl, hx⟩ := hone
    rw [hx]
    exact seen_pass (fun r hr => seen_yaml_like (by revert hr; revert r; decide)) (hk t (by simp [keptKids, Rule.kind])) hv
  case document =>
    have hone : ∃ t, us = [t] ∧ visible (consumed s rest) = visible t.text := by
      rcases hs with hs | hs <;>
      · obtain ⟨t, ht, -, hx⟩ := spells_one (by decide) hs
        exact ⟨t, ht, hx⟩
    obtain ⟨t, rfl, hx⟩ := hone
    rw [hx]
    exact seen_pass (fun r hr => seen_yaml_like (by revert hr; revert r; decide)) (hk t (by simp [keptKids, Rule.kind])) hv
  case string_multiline_content_part =>
    have g1 := (spells_seq_nil spells_newline _ _).1 hs
    obtain ⟨t₁, us₁, x₁, rfl, r₁, hx, g2⟩ := spells_cons (by decide) g1
    have g3 := (spells_seq_nil spells_peek2 _ _).1 g2
    obtain ⟨t₂, rfl, r₂, rfl⟩ := spells_one (by decide) g3
    have k₁ := hk t₁ (by simp [keptKids, Rule.kind])
    have k₂ := hk t₂ (by simp [keptKids, Rule.kind])
    simp only [keptKids, Rule.kind, act, semKids_cons, semKids, r₁, r₂, Consume.stringMultilineContentPart] at hv
    obtain ⟨w, e₁, hv⟩ := Out.ok_of_bind hv
    obtain ⟨es, e₂, hv⟩ := Out.ok_of_bind hv
    obtain ⟨w', e₃, hv⟩ := Out.ok_of_bind hv
    obtain ⟨b, e₄, hv⟩ := Out.ok_of_bind hv
    cases hv
    obtain ⟨h1, h2⟩ := k₁.strs (.inl r₁) e₁ e₂
    obtain ⟨h3, h4⟩ := k₂.line r₂ e₃ e₄
    refine ⟨_, rfl, by rw [hx, h1, h3]; simp [List.flatMap_append], ?_⟩
    intro l hl
    rcases List.mem_append.1 hl with hl | hl
    · exact h2 l hl
    · rw [List.mem_singleton.1 hl]; exact h4
  case string_multiline_content => exact seen_content hs hk hv
  case string_multiline_folded => exact seen_multiline (by decide) (fun _ _ _ h => .folded h) hs hk hv
  case string_multiline_literal => exact seen_multiline (by decide) (fun _ _ _ h => .literal h) hs hk hv
  case aliased_yaml_value =>
    obtain ⟨us₁, x₁, us₂, x₂, g1, g2, rfl, hx⟩ := hs
    obtain ⟨t₂, rfl, r₂, rfl⟩ := spells_one (by decide) g2
    rw [hx]
    rcases g1 with g1 | ⟨rfl, rfl⟩
    · obtain ⟨t₁, us₃, x₃, rfl, r₁, rfl, g3⟩ := spells_cons (by decide) g1
      obtain ⟨rfl, rfl⟩ := (spells_stars _ _).1 g3
      simp only [keptKids, Rule.kind, act, List.cons_append, List.nil_append, semKids_cons, semKids, r₁, r₂, Consume.aliasedYamlValue] at hv
      have := seen_aliased r₁ r₂ (seen_yaml_like (by decide)) (hk t₁ (by simp [keptKids, Rule.kind])) (hk t₂ (by simp [keptKids, Rule.kind])) hv
      simpa [Seen] using this
    · simp only [keptKids, Rule.kind, act, List.nil_append, semKids_cons, semKids, r₂, Consume.aliasedYamlValue] at hv
      exact seen_unaliased r₂ (seen_yaml_like (by decide)) (hk t₂ (by simp [keptKids, Rule.kind])) hv
  case block_array_aliased_yaml_value =>
    rcases hs with hs | hs <;> obtain ⟨t, rfl, ht, hx⟩ := spells_one (by decide) hs
    all_goals
      have ks := hk t (by simp [keptKids, Rule.kind])
      simp only [keptKids, Rule.kind, act, semKids_cons, semKids, ht, Consume.blockArrayAliasedYamlValue] at hv
      obtain ⟨w, e₁, hv⟩ := Out.ok_of_bind hv
      obtain ⟨a, e₂, hv⟩ := Out.ok_of_bind hv
      cases hv
      obtain rfl := asAliased_ok e₂
      rw [hx]
      exact ks.ok ht e₁
  case alternative_aliased_yaml_value =>
    obtain ⟨us₁, x₁, us₂, x₂, g1, g2, rfl, hx⟩ := hs
    rw [hx]
    rcases g1 with g1 | ⟨rfl, rfl⟩
    · obtain ⟨t₁, us₃, x₃, rfl, r₁, rfl, g3⟩ := spells_cons (by decide) g1
      obtain ⟨rfl, rfl⟩ := (spells_spaces _ _).1 g3
      rcases g2 with g2 | g2 <;> obtain ⟨t₂, rfl, r₂, rfl⟩ := spells_one (by decide) g2
      all_goals
        simp only [keptKids, Rule.kind, act, List.cons_append, List.nil_append, semKids_cons, semKids, r₁, r₂, Consume.alternativeAliasedYamlValue] at hv
        have := seen_aliased r₁ r₂ (seen_yaml_like (by decide)) (hk t₁ (by simp [keptKids, Rule.kind])) (hk t₂ (by simp [keptKids, Rule.kind])) hv
        simpa [Seen] using this
    · rcases g2 with g2 | g2 <;> obtain ⟨t₂, rfl, r₂, rfl⟩ := spells_one (by decide) g2
      all_goals
        simp only [keptKids, Rule.kind, act, List.nil_append, semKids_cons, semKids, r₂, Consume.alternativeAliasedYamlValue] at hv
        exact seen_unaliased r₂ (seen_yaml_like (by decide)) (hk t₂ (by simp [keptKids, Rule.kind])) hv
  case hash_element =>
    obtain ⟨t₁, us₁, x₁, rfl, r₁, hx, g1⟩ := spells_cons (by decide) hs
    obtain ⟨x', rfl, g2⟩ := spells_lit (by decide) g1
    have g3 := (spells_seq_nil spells_gap_or _ _).1 g2
    obtain ⟨t₂, rfl, r₂, rfl⟩ := spells_one (by decide) g3
    have k₁ := hk t₁ (by simp [keptKids, Rule.kind])
    have k₂ := hk t₂ (by simp [keptKids, Rule.kind])
    simp only [keptKids, Rule.kind, act, semKids_cons, semKids, r₁, r₂, Consume.hashElement] at hv
    obtain ⟨w, e₁, hv⟩ := Out.ok_of_bind hv
    obtain ⟨a, e₂, hv⟩ := Out.ok_of_bind hv
    obtain ⟨w', e₃, hv⟩ := Out.ok_of_bind hv
    obtain ⟨y, e₄, hv⟩ := Out.ok_of_bind hv
    cases hv
    obtain ⟨n, y, z, rfl, h1, h2⟩ := k₂.aliased r₂ e₃ e₄
    refine ⟨_, rfl, ?_⟩
    rw [hx, k₁.key r₁ e₁ e₂, h1]
    simpa using EntriesShown.element (k := a) (a := n) h2 (.nil)
  case first_hash_element =>
    obtain ⟨t₁, us₁, x₁, rfl, r₁, hx, g1⟩ := spells_cons (by decide) hs
    have k₁ := hk t₁ (by simp [keptKids, Rule.kind])
    rcases spells_opt_one (by decide) g1 with ⟨rfl, rfl⟩ | ⟨t₂, rfl, r₂, rfl⟩
    · simp only [keptKids, Rule.kind, act, semKids_cons, semKids, r₁, Consume.firstHashElement] at hv
      obtain ⟨w, e₁, hv⟩ := Out.ok_of_bind hv
      obtain ⟨a, e₂, hv⟩ := Out.ok_of_bind hv
      cases hv
      exact ⟨_, rfl, by rw [hx, List.append_nil]; exact k₁.hashElement r₁ e₁ e₂⟩
    · have k₂ := hk t₂ (by simp [keptKids, Rule.kind])
      simp only [keptKids, Rule.kind, act, semKids_cons, semKids, r₁, r₂, Consume.firstHashElement] at hv
      obtain ⟨w, e₁, hv⟩ := Out.ok_of_bind hv
      obtain ⟨a, e₂, hv⟩ := Out.ok_of_bind hv
      obtain ⟨w', e₃, hv⟩ := Out.ok_of_bind hv
      obtain ⟨c, e₄, hv⟩ := Out.ok_of_bind hv
      cases hv
      refine ⟨_, rfl, ?_⟩
      rw [hx, k₂.comment r₂ e₃ e₄]
      simpa using (k₁.hashElement r₁ e₁ e₂).append (EntriesShown.inlineComment (c := c) .nil)
  case hash_element_data =>
    have g0 := (spells_seq_nil spells_blanknl _ _).1 hs
    obtain ⟨t₀, us₀, x₀, rfl, r₀, hx, g1⟩ := spells_cons (by decide) g0
    have g2 := (spells_seq_nil spells_peek _ _).1 g1
    obtain ⟨t₁, us₁, x₁, rfl, r₁, rfl, g3⟩ := spells_cons (by decide) g2
    have k₀ := hk t₀ (by simp [keptKids, Rule.kind])
    have k₁ := hk t₁ (by simp [keptKids, Rule.kind])
    rcases spells_opt_one (by decide) g3 with ⟨rfl, rfl⟩ | ⟨t₂, rfl, r₂, rfl⟩
    · simp only [keptKids, Rule.kind, act, semKids_cons, semKids, r₀, r₁, Consume.hashElementData] at hv
      obtain ⟨w₀, e₅, hv⟩ := Out.ok_of_bind hv
      obtain ⟨cs, e₆, hv⟩ := Out.ok_of_bind hv
      obtain ⟨w, e₁, hv⟩ := Out.ok_of_bind hv
      obtain ⟨a, e₂, hv⟩ := Out.ok_of_bind hv
      cases hv
      refine ⟨_, rfl, ?_⟩
      rw [hx, k₀.comments r₀ e₅ e₆]
      simpa using (EntriesShown.comments cs).append (k₁.hashElement r₁ e₁ e₂)
    · have k₂ := hk t₂ (by simp [keptKids, Rule.kind])
      simp only [keptKids, Rule.kind, act, semKids_cons, semKids, r₀, r₁, r₂, Consume.hashElementData] at hv
      obtain ⟨w₀, e₅, hv⟩ := Out.ok_of_bind hv
      obtain ⟨cs, e₆, hv⟩ := Out.ok_of_bind hv
      obtain ⟨w, e₁, hv⟩ := Out.ok_of_bind hv
      obtain ⟨a, e₂, hv⟩ := Out.ok_of_bind hv
      obtain ⟨w', e₃, hv⟩ := Out.ok_of_bind hv
      obtain ⟨c, e₄, hv⟩ := Out.ok_of_bind hv
      cases hv
      refine ⟨_, rfl, ?_⟩
      rw [hx, k₀.comments r₀ e₅ e₆, k₂.comment r₂ e₃ e₄]
      simpa using ((EntriesShown.comments cs).append (k₁.hashElement r₁ e₁ e₂)).append (EntriesShown.inlineComment (c := c) .nil)
  case hash => exact seen_hash hs hk hv
  case alternative_hash_continuation => exact seen_continuation hs hk hv
  case alternative_hash => exact seen_alternative_hash hs hk hv
  case block_array_element =>
    obtain ⟨x', hx, g1⟩ := spells_lit (by decide) hs
    have g2 := (spells_seq_nil spells_gap _ _).1 g1
    obtain ⟨t, rfl, ht, rfl⟩ := spells_one (by decide) g2
    have ks := hk t (by simp [keptKids, Rule.kind])
    simp only [keptKids, Rule.kind, act, semKids_cons, semKids, ht, Consume.blockArrayElement] at hv
    obtain ⟨w, e₁, hv⟩ := Out.ok_of_bind hv
    obtain ⟨a, e₂, hv⟩ := Out.ok_of_bind hv
    cases hv
    obtain ⟨n, y, z, rfl, h1, h2⟩ := ks.aliased ht e₁ e₂
    refine ⟨_, rfl, ?_⟩
    rw [hx, h1]
    simpa using ElementsShown.element (a := n) h2 (.nil)
  case first_block_array_element =>
    obtain ⟨t₁, us₁, x₁, rfl, r₁, hx, g1⟩ := spells_cons (by decide) hs
    have k₁ := hk t₁ (by simp [keptKids, Rule.kind])
    rcases spells_opt_one (by decide) g1 with ⟨rfl, rfl⟩ | ⟨t₂, rfl, r₂, rfl⟩
    · simp only [keptKids, Rule.kind, act, semKids_cons, semKids, r₁, Consume.firstBlockArrayElement] at hv
      obtain ⟨w, e₁, hv⟩ := Out.ok_of_bind hv
      obtain ⟨a, e₂, hv⟩ := Out.ok_of_bind hv
      cases hv
      exact ⟨_, rfl, by rw [hx, List.append_nil]; exact k₁.arrayDatum r₁ e₁ e₂⟩
    · have k₂ := hk t₂ (by simp [keptKids, Rule.kind])
      simp only [keptKids, Rule.kind, act, semKids_cons, semKids, r₁, r₂, Consume.firstBlockArrayElement] at hv
      obtain ⟨w, e₁, hv⟩ := Out.ok_of_bind hv
      obtain ⟨a, e₂, hv⟩ := Out.ok_of_bind hv
      obtain ⟨w', e₃, hv⟩ := Out.ok_of_bind hv
      obtain ⟨c, e₄, hv⟩ := Out.ok_of_bind hv
      cases hv
      refine ⟨_, rfl, ?_⟩
      rw [hx, k₂.comment r₂ e₃ e₄]
      simpa using (k₁.arrayDatum r₁ e₁ e₂).append (ElementsShown.inlineComment (c := c) .nil)
  case block_array_data =>
    have g0 := hs
    obtain ⟨t₀, us₀, x₀, rfl, r₀, hx, g1⟩ := spells_cons (by decide) g0
    have g2 := (spells_seq_nil spells_peek _ _).1 g1
    obtain ⟨t₁, us₁, x₁, rfl, r₁, rfl, g3⟩ := spells_cons (by decide) g2
    have k₀ := hk t₀ (by simp [keptKids, Rule.kind])
    have k₁ := hk t₁ (by simp [keptKids, Rule.kind])
    rcases spells_opt_one (by decide) g3 with ⟨rfl, rfl⟩ | ⟨t₂, rfl, r₂, rfl⟩
    · simp only [keptKids, Rule.kind, act, semKids_cons, semKids, r₀, r₁, Consume.blockArrayData] at hv
      obtain ⟨w₀, e₅, hv⟩ := Out.ok_of_bind hv
      obtain ⟨cs, e₆, hv⟩ := Out.ok_of_bind hv
      obtain ⟨w, e₁, hv⟩ := Out.ok_of_bind hv
      obtain ⟨a, e₂, hv⟩ := Out.ok_of_bind hv
      cases hv
      refine ⟨_, rfl, ?_⟩
      rw [hx, k₀.comments r₀ e₅ e₆]
      simpa using (ElementsShown.comments cs).append (k₁.arrayDatum r₁ e₁ e₂)
    · have k₂ := hk t₂ (by simp [keptKids, Rule.kind])
      simp only [keptKids, Rule.kind, act, semKids_cons, semKids, r₀, r₁, r₂, Consume.blockArrayData] at hv
      obtain ⟨w₀, e₅, hv⟩ := Out.ok_of_bind hv
      obtain ⟨cs, e₆, hv⟩ := Out.ok_of_bind hv
      obtain ⟨w, e₁, hv⟩ := Out.ok_of_bind hv
      obtain ⟨a, e₂, hv⟩ := Out.ok_of_bind hv
      obtain ⟨w', e₃, hv⟩ := Out.ok_of_bind hv
      obtain ⟨c, e₄, hv⟩ := Out.ok_of_bind hv
      cases hv
      refine ⟨_, rfl, ?_⟩
      rw [hx, k₀.comments r₀ e₅ e₆, k₂.comment r₂ e₃ e₄]
      simpa using ((ElementsShown.comments cs).append (k₁.arrayDatum r₁ e₁ e₂)).append (ElementsShown.inlineComment (c := c) .nil)
  case block_array => exact seen_block_array hs hk hv
  case alternative_array => exact seen_alternative_array hs hk hv
  case commentnls =>
    obtain ⟨hr, hx⟩ := spells_star_rule (q := .commentnl) (by decide) hs
    rw [hx]
    exact seen_comments hr hk hv
  case leading_comments =>
    obtain ⟨hr, hx⟩ := spells_star_one (q := .commentnl) (f := fun t => visible t.text) (by
      intro ts x h
      have g1 := (spells_seq_nil (spells_star_nil spells_blanknl) _ _).1 h
      obtain ⟨t, us', x', rfl, r, rfl, g2⟩ := spells_cons (by decide) g1
      obtain ⟨rfl, rfl⟩ := (spells_star_nil spells_blanknl _ _).1 g2
      exact ⟨t, rfl, r, by simp⟩) hs
    rw [hx]
    exact seen_comments hr hk hv
  case yaml => exact seen_document hs hk hv
  all_goals cases hv

/-- Every node says what its text shows. -/
theorem sees_tree {inp : Str} {t : Tree Rule} (h : Derived Gy YamlStack inp t) : Sees t := by
  induction h with
  | @node r pre s rest k k' us hs hi h hk ih =>
    intro v hv
    exact sees_act h hi ih hv
  | eoi h =>
    rename_i r
    cases r <;> first | cases h; done | exact fun _ _ => rfl

end YamlSubset
