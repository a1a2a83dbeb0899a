import Verif.Lemmas.PegShape
import Verif.Lemmas.Strings
import Verif.Model.Grammar
import Verif.Spec.Parsed

/-! # Texts matched by the rules of `yaml.pest` -/

namespace YamlSubset

open Peg Spec

section
variable {R : Type} {g : Grammar R}

theorem no_lit {c : Char} {s k} : No g (.str [c]) s k ↔ s.head? ≠ some c := by
  rw [no_str]
  cases s with
  | nil => simp
  | cons d s => simp [eq_comm]

theorem no_lit2 {c d : Char} {s k} : No g (.str [c, d]) s k ↔ ∀ r, s ≠ c :: d :: r := by
  rw [no_str]; simp

theorem yes_any {s k ts r k'} : Yes g (.cls fun _ => true) s k ts r k' ↔ (∃ c, s = c :: r) ∧ ts = [] ∧ k' = k := by
  rw [yes_cls]; simp

theorem yes_not_any {e : Expr R} {s k ts r k'} :
    Yes g (.seq (.not e) (.cls fun _ => true)) s k ts r k' ↔ No g e s k ∧ (∃ c, s = c :: r) ∧ ts = [] ∧ k' = k := by
  simp only [yes_seq, yes_not, yes_any]
  constructor
  · rintro ⟨_, _, _, _, ⟨h, rfl, rfl, rfl⟩, ⟨hc, rfl, rfl⟩, rfl⟩
    exact ⟨h, hc, rfl, rfl⟩
  · rintro ⟨h, hc, rfl, rfl⟩
    exact ⟨[], s, k', [], ⟨h, rfl, rfl, rfl⟩, ⟨hc, rfl, rfl⟩, rfl⟩

theorem consumed_cons (c : Char) (t r : Str) : consumed (c :: (t ++ r)) r = c :: t :=
  consumed_append (c :: t) r

/-- What a rule consumed, for a body that consumes `t`. -/
theorem consumed_eq {s t r : Str} (h : s = t ++ r) : consumed s r = t := by
  rw [h, consumed_append]

end

variable {T : CharTables}

theorem no_newline {s k} : No (yamlGrammar T) Rule.NEWLINE s k ↔ s.head? ≠ some '\n' ∧ s.head? ≠ some '\r' := by
  simp only [Rule.NEWLINE, Expr.alts, no_alt, no_lit, no_lit2]
  constructor
  · rintro ⟨h1, h2, h3⟩; exact ⟨h1, h3⟩
  · rintro ⟨h1, h2⟩
    refine ⟨h1, ?_, h2⟩
    rintro r rfl; simp at h2

theorem yes_newline {s k ts r k'} (h : Yes (yamlGrammar T) Rule.NEWLINE s k ts r k') :
    (s = '\n' :: r ∨ s = '\r' :: '\n' :: r ∨ s = '\r' :: r) ∧ ts = [] ∧ k' = k := by
  simp only [Rule.NEWLINE, Expr.alts, yes_alt, yes_str] at h
  rcases h with ⟨h1, h2, h3⟩ | ⟨-, ⟨h1, h2, h3⟩ | ⟨-, h1, h2, h3⟩⟩
  · exact ⟨.inl h3, h1, h2⟩
  · exact ⟨.inr (.inl h3), h1, h2⟩
  · exact ⟨.inr (.inr h3), h1, h2⟩

theorem line_of_not {t : Str} (h : ∀ c ∈ t, c ≠ '\n' ∧ c ≠ '\r') : LineText t :=
  ⟨fun hm => (h _ hm).1 rfl, fun hm => (h _ hm).2 rfl⟩

/-- Characters up to the end of the line. -/
theorem star_not_newline {s k ts r k'} (h : Yes (yamlGrammar T) (.star (.seq (.not Rule.NEWLINE) Rule.ANY)) s k ts r k') :
    ∃ t, s = t ++ r ∧ LineText t := by
  obtain ⟨t, hs, ht⟩ := Yes.star_all (P := fun c => c ≠ '\n' ∧ c ≠ '\r') (by
    intro s k ts r k' h
    obtain ⟨hn, ⟨c, rfl⟩, -⟩ := yes_not_any.1 h
    refine ⟨c, rfl, ?_⟩
    simpa using no_newline.1 hn) h
  exact ⟨t, hs, line_of_not ht⟩

theorem text_comment_text {s k ts r k'} (h : Yes (yamlGrammar T) ((yamlGrammar T).body .comment_text) s k ts r k') :
    LineText (consumed s r) := by
  obtain ⟨t, hs, ht⟩ := star_not_newline h
  rw [consumed_eq hs]; exact ht

theorem text_block_string {s k ts r k'} (h : Yes (yamlGrammar T) ((yamlGrammar T).body .block_string) s k ts r k') :
    LineText (consumed s r) := by
  simp only [yamlGrammar, Rule.body, Expr.plus] at h
  rcases yes_alt.1 h with h | ⟨-, h⟩
  · obtain ⟨_, s₁, _, _, h1, h2, -⟩ := yes_seq.1 h
    obtain ⟨hn, ⟨c, rfl⟩, -⟩ := yes_not_any.1 h1
    have hc := (no_newline (T := T)).1 hn
    obtain ⟨t, rfl, ht⟩ := star_not_newline (T := T) h2
    rw [consumed_cons]
    simp only [List.head?_cons, ne_eq, Option.some.injEq] at hc
    simp only [LineText, List.mem_cons, not_or]
    exact ⟨⟨fun h => hc.1 h.symm, ht.1⟩, ⟨fun h => hc.2 h.symm, ht.2⟩⟩
  · obtain ⟨-, -, h⟩ := yes_str.1 h
    rw [consumed_eq h]
    simp [LineText]

theorem yes_nameChar {s k ts r k'}
    (h : Yes (yamlGrammar T) (Expr.alts [.cls T.letter, .cls T.number, .str ['_']]) s k ts r k') :
    ∃ c, s = c :: r ∧ NameChar T c := by
  simp only [Expr.alts, yes_alt, yes_cls, yes_str] at h
  rcases h with ⟨c, h, hc, -⟩ | ⟨-, ⟨c, h, hc, -⟩ | ⟨-, -, -, h⟩⟩
  · exact ⟨c, h, .inl hc⟩
  · exact ⟨c, h, .inr (.inl hc)⟩
  · exact ⟨_, h, .inr (.inr rfl)⟩

theorem text_alias_name {s k ts r k'} (h : Yes (yamlGrammar T) ((yamlGrammar T).body .alias_name) s k ts r k') :
    NameText T (consumed s r) := by
  simp only [yamlGrammar, Rule.body, Expr.plus] at h
  obtain ⟨_, s₁, _, _, h1, h2, -⟩ := yes_seq.1 h
  obtain ⟨c, rfl, hc⟩ := yes_nameChar (T := T) h1
  obtain ⟨t, rfl, ht⟩ := Yes.star_all (P := NameChar T) (fun s k ts r k' h => yes_nameChar (T := T) h) h2
  rw [consumed_cons]
  refine ⟨by simp, ?_⟩
  intro d hd
  rcases List.mem_cons.1 hd with rfl | hd
  · exact hc
  · exact ht d hd

theorem nameChar_not_white {c : Char} (h : NameChar T c) : isWhitespace c = false := by
  cases hw : isWhitespace c with
  | false => rfl
  | true =>
    rcases h with h | h | rfl
    · rw [T.letter_not_white c hw] at h; cases h
    · rw [T.number_not_white c hw] at h; cases h
    · revert hw; decide

/-- A decomposition of `trimEnd`. -/
theorem trimEnd_append (s : Str) : ∃ u, s = trimEnd s ++ u ∧ (∀ c ∈ u, isWhitespace c = true) ∧
    ∀ c, (trimEnd s).getLast? = some c → isWhitespace c = false := by
  refine ⟨(s.reverse.takeWhile isWhitespace).reverse, ?_, ?_, ?_⟩
  · rw [trimEnd, ← List.reverse_append, List.takeWhile_append_dropWhile, List.reverse_reverse]
  · intro c hc
    rw [List.mem_reverse] at hc
    have := List.all_takeWhile (l := s.reverse) (p := isWhitespace)
    exact List.all_eq_true.1 this c hc
  · intro c hc
    rw [trimEnd, List.getLast?_reverse] at hc
    have := List.head?_dropWhile_not isWhitespace s.reverse
    rw [hc] at this
    simpa using this

/-- A decomposition of `trim_end_matches`. -/
theorem trimEndMatches_append (s : Str) (d : Char) : ∃ u, s = trimEndMatches s d ++ u ∧ (∀ c ∈ u, c = d) ∧
    (trimEndMatches s d).getLast? ≠ some d := by
  refine ⟨(s.reverse.takeWhile (· == d)).reverse, ?_, ?_, ?_⟩
  · rw [trimEndMatches, ← List.reverse_append, List.takeWhile_append_dropWhile, List.reverse_reverse]
  · intro c hc
    rw [List.mem_reverse] at hc
    have := List.all_takeWhile (l := s.reverse) (p := (· == d))
    simpa using List.all_eq_true.1 this c hc
  · intro hc
    rw [trimEndMatches, List.getLast?_reverse] at hc
    have := List.head?_dropWhile_not (· == d) s.reverse
    rw [hc] at this
    simp at this

theorem text_hash_key {s k ts r k'} (h : Yes (yamlGrammar T) ((yamlGrammar T).body .hash_key) s k ts r k') :
    KeyText T (trimEnd (consumed s r)) := by
  simp only [yamlGrammar, Rule.body] at h
  obtain ⟨_, s₁, _, _, h1, h2, -⟩ := yes_seq.1 h
  obtain ⟨c, rfl, hc⟩ := yes_nameChar (T := T) h1
  obtain ⟨t, rfl, ht⟩ := Yes.star_all (P := fun c => NameChar T c ∨ c = '-' ∨ c = ' ') (by
    intro s k ts r k' h
    simp only [Expr.alts, yes_alt, yes_cls, yes_str] at h
    rcases h with ⟨c, h, hc, -⟩ | ⟨-, ⟨c, h, hc, -⟩ | ⟨-, ⟨-, -, h⟩ | ⟨-, ⟨-, -, h⟩ | ⟨-, -, -, h⟩⟩⟩⟩
    · exact ⟨c, h, .inl (.inl hc)⟩
    · exact ⟨c, h, .inl (.inr (.inl hc))⟩
    · exact ⟨_, h, .inl (.inr (.inr rfl))⟩
    · exact ⟨_, h, .inr (.inl rfl)⟩
    · exact ⟨_, h, .inr (.inr rfl)⟩) h2
  rw [consumed_cons]
  obtain ⟨u, hu, hw, hl⟩ := trimEnd_append (c :: t)
  have hne : trimEnd (c :: t) ≠ [] := by
    intro h
    rw [h] at hu
    have := hw c (by rw [List.nil_append] at hu; rw [← hu]; simp)
    rw [nameChar_not_white hc] at this
    cases this
  have hhead : (trimEnd (c :: t)).head? = some c := by
    cases hte : trimEnd (c :: t) with
    | nil => exact absurd hte hne
    | cons d v =>
      rw [hte] at hu
      simp only [List.cons_append, List.cons.injEq] at hu
      simp [hu.1]
  refine ⟨hne, ?_, ?_, hl⟩
  · intro d hd
    rw [hhead] at hd
    simp only [Option.some.injEq] at hd
    exact hd ▸ hc
  · intro d hd
    have : d ∈ c :: t := by rw [hu]; exact List.mem_append.2 (.inl hd)
    rcases List.mem_cons.1 this with rfl | h
    · exact .inl hc
    · exact ht d h

/-! ## plain scalars -/

/-- Facts about trimmed text from facts about the text. -/
theorem plain_trim {t : Str} (hline : LineText t) (hhash : '#' ∉ t) (hcs : ∀ a b, t ≠ a ++ ':' :: ' ' :: b)
    (hfirst : ∀ c, t.head? = some c → c ∉ ['[', ']', '{', '}', '"', '\'', '#']) : PlainText (trimEndMatches t ' ') := by
  obtain ⟨u, hu, -, hl⟩ := trimEndMatches_append t ' '
  have hm : ∀ c, c ∈ trimEndMatches t ' ' → c ∈ t := fun c hc => by rw [hu]; exact List.mem_append.2 (.inl hc)
  refine ⟨⟨fun h => hline.1 (hm _ h), fun h => hline.2 (hm _ h)⟩, fun h => hhash (hm _ h), ?_, hl, ?_⟩
  · intro a b h
    apply hcs a (b ++ u)
    rw [h] at hu
    rw [hu]
    simp
  · intro c hc
    apply hfirst
    rw [hu, List.head?_append, hc]
    rfl

theorem trim_mem {t : Str} {d c : Char} (h : c ∈ trimEndMatches t d) : c ∈ t := by
  obtain ⟨u, hu, -⟩ := trimEndMatches_append t d
  rw [hu]; exact List.mem_append.2 (.inl h)

/-- What the text of a plain scalar outside flow collections says about it. -/
structure WeakPlain (s : Str) : Prop where
  plain : PlainText s
  notBlock : s.head? ≠ some '>' ∧ s.head? ≠ some '|'

/-- What the text of a plain scalar in a flow collection says about it. -/
structure WeakFlowPlain (s : Str) : Prop where
  plain : PlainText s
  noFlow : ∀ c ∈ s, c ∉ [',', '[', ']', '{', '}', '"']
  tail : ∀ c ∈ s.tail, c ≠ '>' ∧ c ≠ '|'

theorem trim_head {t : Str} {d c : Char} (h : (trimEndMatches t d).head? = some c) : t.head? = some c := by
  obtain ⟨u, hu, -⟩ := trimEndMatches_append t d
  rw [hu, List.head?_append, h]
  rfl

theorem trim_tail {t : Str} {d c : Char} (h : c ∈ (trimEndMatches t d).tail) : c ∈ t.tail := by
  obtain ⟨u, hu, -⟩ := trimEndMatches_append t d
  cases hv : trimEndMatches t d with
  | nil => rw [hv] at h; cases h
  | cons x v =>
    rw [hv] at h hu
    rw [hu]
    exact List.mem_append.2 (.inl h)

theorem text_unquoted_string {s k ts r k'} (h : Yes (yamlGrammar T) ((yamlGrammar T).body .unquoted_string) s k ts r k') :
    WeakPlain (trimEndMatches (consumed s r) ' ') := by
  obtain ⟨_, s₁, _, _, h1, h2, -⟩ := yes_seq.1 h
  obtain ⟨_, h1, -⟩ := yes_rule.1 h1
  obtain ⟨hn, ⟨c, rfl⟩, -⟩ := yes_not_any.1 h1
  have hn := no_rule.1 hn
  simp only [yamlGrammar, Rule.body, Expr.alts, no_alt, no_lit, no_lit2] at hn
  obtain ⟨n1, n2, n3, n4, n5, n6, n7, n8, n9, n10, hn⟩ := hn
  have hnl := (no_newline (T := T)).1 hn
  obtain ⟨t, rfl, ht⟩ := Yes.star_chars (P := fun c r => (c ≠ '\n' ∧ c ≠ '\r') ∧ c ≠ '#' ∧ (c = ':' → ∀ r', r ≠ ' ' :: r')) (by
    intro s k ts r k' h
    obtain ⟨_, h1, -⟩ := yes_rule.1 h
    obtain ⟨hn, ⟨c, rfl⟩, -⟩ := yes_not_any.1 h1
    have hn := no_rule.1 hn
    simp only [yamlGrammar, Rule.body, Expr.alts, no_alt, no_lit, no_lit2] at hn
    obtain ⟨n1, n2, hn⟩ := hn
    have hnl := (no_newline (T := T)).1 hn
    simp only [List.head?_cons, ne_eq, Option.some.injEq] at hnl n2
    refine ⟨c, rfl, hnl, n2, ?_⟩
    rintro rfl r' rfl
    exact n1 r' rfl) h2
  rw [consumed_cons]
  simp only [List.head?_cons, ne_eq, Option.some.injEq] at *
  have hall : ∀ d ∈ t, (d ≠ '\n' ∧ d ≠ '\r') ∧ d ≠ '#' := by
    intro d hd
    obtain ⟨a, b, rfl⟩ := List.append_of_mem hd
    exact ⟨(ht _ _ _ rfl).1, (ht _ _ _ rfl).2.1⟩
  refine ⟨?_, fun h => ?_, fun h => ?_⟩
  case refine_2 => have := trim_head h; simp only [List.head?_cons, Option.some.injEq] at this; exact n9 this
  case refine_3 => have := trim_head h; simp only [List.head?_cons, Option.some.injEq] at this; exact n10 this
  apply plain_trim
  · apply line_of_not
    intro d hd
    rcases List.mem_cons.1 hd with rfl | hd
    · exact hnl
    · exact (hall d hd).1
  · intro hd
    rcases List.mem_cons.1 hd with h | hd
    · exact n8 h.symm
    · exact (hall _ hd).2 rfl
  · intro a b heq
    cases a with
    | nil =>
      simp only [List.nil_append, List.cons.injEq] at heq
      obtain ⟨rfl, rfl⟩ := heq
      exact n5 (b ++ r) rfl
    | cons x a =>
      simp only [List.cons_append, List.cons.injEq] at heq
      exact (ht a ':' (' ' :: b) heq.2).2.2 rfl (b ++ r) rfl
  · intro d hd
    simp only [List.head?_cons, Option.some.injEq] at hd
    subst hd
    simp only [List.mem_cons, List.not_mem_nil, or_false, not_or]
    exact ⟨n1, n2, n3, n4, n6, n7, n8⟩

theorem text_unquoted_inline_string {s k ts r k'}
    (h : Yes (yamlGrammar T) ((yamlGrammar T).body .unquoted_inline_string) s k ts r k') :
    WeakFlowPlain (trimEndMatches (consumed s r) ' ') := by
  obtain ⟨_, s₁, _, _, h1, h2, -⟩ := yes_seq.1 h
  obtain ⟨_, h1, -⟩ := yes_rule.1 h1
  obtain ⟨hn, ⟨c, rfl⟩, -⟩ := yes_not_any.1 h1
  have hn := no_rule.1 hn
  simp only [yamlGrammar, Rule.body, Expr.alts, no_alt, no_lit, no_lit2] at hn
  obtain ⟨n1, n2, n3, n4, n5, n6, n7, n8, n9, hn⟩ := hn
  have hnl := (no_newline (T := T)).1 hn
  obtain ⟨t, rfl, ht⟩ := Yes.star_chars (P := fun c r => (c ≠ '\n' ∧ c ≠ '\r') ∧ c ≠ '#' ∧ (c = ':' → ∀ r', r ≠ ' ' :: r') ∧
      c ∉ [',', '[', ']', '{', '}', '"'] ∧ c ≠ '>' ∧ c ≠ '|') (by
    intro s k ts r k' h
    obtain ⟨_, h1, -⟩ := yes_rule.1 h
    obtain ⟨hn, ⟨c, rfl⟩, -⟩ := yes_not_any.1 h1
    have hn := no_rule.1 hn
    simp only [yamlGrammar, Rule.body, Expr.alts, no_alt, no_lit, no_lit2] at hn
    obtain ⟨m1, m2, m3, m4, m5, m6, m7, m8, m9, m10, hn⟩ := hn
    have hnl := (no_newline (T := T)).1 hn
    simp only [List.head?_cons, ne_eq, Option.some.injEq] at *
    refine ⟨c, rfl, hnl, m8, ?_, ?_, m9, m10⟩
    · rintro rfl r' rfl
      exact m6 r' rfl
    · simp only [List.mem_cons, List.not_mem_nil, or_false, not_or]
      exact ⟨m1, m2, m3, m4, m5, m7⟩) h2
  rw [consumed_cons]
  simp only [List.head?_cons, ne_eq, Option.some.injEq] at *
  have hall : ∀ d ∈ t, (d ≠ '\n' ∧ d ≠ '\r') ∧ d ≠ '#' ∧ d ∉ [',', '[', ']', '{', '}', '"'] ∧ d ≠ '>' ∧ d ≠ '|' := by
    intro d hd
    obtain ⟨a, b, rfl⟩ := List.append_of_mem hd
    exact ⟨(ht _ _ _ rfl).1, (ht _ _ _ rfl).2.1, (ht _ _ _ rfl).2.2.2⟩
  refine ⟨plain_trim ?_ ?_ ?_ ?_, ?_, fun d hd => (hall d (trim_tail hd)).2.2.2⟩
  · apply line_of_not
    intro d hd
    rcases List.mem_cons.1 hd with rfl | hd
    · exact hnl
    · exact (hall d hd).1
  · intro hd
    rcases List.mem_cons.1 hd with h | hd
    · exact n9 h.symm
    · exact (hall _ hd).2.1 rfl
  · intro a b heq
    cases a with
    | nil =>
      simp only [List.nil_append, List.cons.injEq] at heq
      obtain ⟨rfl, rfl⟩ := heq
      exact n6 (b ++ r) rfl
    | cons x a =>
      simp only [List.cons_append, List.cons.injEq] at heq
      exact (ht a ':' (' ' :: b) heq.2).2.2.1 rfl (b ++ r) rfl
  · intro d hd
    simp only [List.head?_cons, Option.some.injEq] at hd
    subst hd
    simp only [List.mem_cons, List.not_mem_nil, or_false, not_or]
    exact ⟨n2, n3, n4, n5, n7, n8, n9⟩
  · intro d hd
    rcases List.mem_cons.1 (trim_mem hd) with rfl | hd
    · simp only [List.mem_cons, List.not_mem_nil, or_false, not_or]
      exact ⟨n1, n2, n3, n4, n5, n7⟩
    · exact (hall d hd).2.2.1

/-! ## quoted scalars -/

theorem text_double_quote_text {s k ts r k'} (h : Yes (yamlGrammar T) ((yamlGrammar T).body .double_quote_text) s k ts r k') :
    consumed s r ≠ [] ∧ ∀ c ∈ consumed s r, c ≠ '"' ∧ c ≠ '\\' ∧ c ≠ '\n' := by
  have hstep : ∀ s k ts r k', Yes (yamlGrammar T) (.seq (.not (.alts [.str ['"'], .str ['\\'], .str ['\n']])) Rule.ANY) s k ts r k' →
      ∃ c, s = c :: r ∧ (c ≠ '"' ∧ c ≠ '\\' ∧ c ≠ '\n') := by
    intro s k ts r k' h
    obtain ⟨hn, ⟨c, rfl⟩, -⟩ := yes_not_any.1 h
    simp only [Expr.alts, no_alt, no_lit, List.head?_cons, ne_eq, Option.some.injEq] at hn
    exact ⟨c, rfl, hn⟩
  simp only [yamlGrammar, Rule.body, Expr.plus] at h
  obtain ⟨_, s₁, _, _, h1, h2, -⟩ := yes_seq.1 h
  obtain ⟨c, rfl, hc⟩ := hstep _ _ _ _ _ h1
  obtain ⟨t, rfl, ht⟩ := Yes.star_all hstep h2
  rw [consumed_cons]
  refine ⟨by simp, ?_⟩
  intro d hd
  rcases List.mem_cons.1 hd with rfl | hd
  · exact hc
  · exact ht d hd

theorem text_single_quote_text {s k ts r k'} (h : Yes (yamlGrammar T) ((yamlGrammar T).body .single_quote_text) s k ts r k') :
    consumed s r ≠ [] ∧ ∀ c ∈ consumed s r, c ≠ '\'' ∧ c ≠ '\n' := by
  have hstep : ∀ s k ts r k', Yes (yamlGrammar T) (.seq (.not (.alts [.str ['\''], .str ['\n']])) Rule.ANY) s k ts r k' →
      ∃ c, s = c :: r ∧ (c ≠ '\'' ∧ c ≠ '\n') := by
    intro s k ts r k' h
    obtain ⟨hn, ⟨c, rfl⟩, -⟩ := yes_not_any.1 h
    simp only [Expr.alts, no_alt, no_lit, List.head?_cons, ne_eq, Option.some.injEq] at hn
    exact ⟨c, rfl, hn⟩
  simp only [yamlGrammar, Rule.body, Expr.plus] at h
  obtain ⟨_, s₁, _, _, h1, h2, -⟩ := yes_seq.1 h
  obtain ⟨c, rfl, hc⟩ := hstep _ _ _ _ _ h1
  obtain ⟨t, rfl, ht⟩ := Yes.star_all hstep h2
  rw [consumed_cons]
  refine ⟨by simp, ?_⟩
  intro d hd
  rcases List.mem_cons.1 hd with rfl | hd
  · exact hc
  · exact ht d hd

theorem text_blank_lines {s k ts r k'} (h : Yes (yamlGrammar T) ((yamlGrammar T).body .blank_lines) s k ts r k') :
    ∃ n, consumed s r = List.replicate (n + 2) '\n' := by
  simp only [yamlGrammar, Rule.body, Expr.plus] at h
  obtain ⟨_, s₁, _, _, h1, h2, -⟩ := yes_seq.1 h
  obtain ⟨_, s₂, _, _, h2, h3, -⟩ := yes_seq.1 h2
  obtain ⟨-, -, rfl⟩ := yes_str.1 h1
  obtain ⟨-, -, rfl⟩ := yes_str.1 h2
  obtain ⟨t, rfl, ht⟩ := Yes.star_all (P := fun c => c = '\n') (by
    intro s k ts r k' h
    obtain ⟨-, -, h⟩ := yes_str.1 h
    exact ⟨_, h, rfl⟩) h3
  refine ⟨t.length, ?_⟩
  rw [consumed_eq (s := ['\n'] ++ (['\n'] ++ (t ++ r))) (t := '\n' :: '\n' :: t) rfl, List.eq_replicate_of_mem ht]
  simp [List.replicate_succ]

theorem text_escaped_double {s k ts r k'}
    (h : Yes (yamlGrammar T) ((yamlGrammar T).body .escaped_double_quote_char_value) s k ts r k') :
    ∃ c, consumed s r = [c] ∧ c ∈ ['n', '\\', 'r', 't', '"', '\n'] := by
  simp only [yamlGrammar, Rule.body, Expr.alts, yes_alt, yes_str] at h
  rcases h with ⟨-, -, h⟩ | ⟨-, ⟨-, -, h⟩ | ⟨-, ⟨-, -, h⟩ | ⟨-, ⟨-, -, h⟩ | ⟨-, ⟨-, -, h⟩ | ⟨-, -, -, h⟩⟩⟩⟩⟩ <;>
    exact ⟨_, consumed_eq h, by simp⟩

theorem text_single_quote {s k ts r k'} (h : Yes (yamlGrammar T) ((yamlGrammar T).body .single_quote) s k ts r k') :
    consumed s r = ['\''] := by
  obtain ⟨-, -, h⟩ := yes_str.1 h
  exact consumed_eq h

theorem text_chomping {s k ts r k'} (h : Yes (yamlGrammar T) ((yamlGrammar T).body .string_block_chomping) s k ts r k') :
    consumed s r = ['-'] ∨ consumed s r = ['+'] := by
  simp only [yamlGrammar, Rule.body, yes_alt, yes_str] at h
  rcases h with ⟨-, -, h⟩ | ⟨-, -, -, h⟩
  · exact .inl (consumed_eq h)
  · exact .inr (consumed_eq h)

theorem text_literal {s k ts r k'} (h : Yes (yamlGrammar T) ((yamlGrammar T).body .string_multiline_literal) s k ts r k') :
    '|' ∈ s := by
  simp only [yamlGrammar, Rule.body, Expr.seqs] at h
  obtain ⟨_, s₁, _, _, h1, -⟩ := yes_seq.1 h
  obtain ⟨-, -, rfl⟩ := yes_str.1 h1
  simp

theorem text_folded {s k ts r k'} (h : Yes (yamlGrammar T) ((yamlGrammar T).body .string_multiline_folded) s k ts r k') :
    '>' ∈ s := by
  simp only [yamlGrammar, Rule.body, Expr.seqs] at h
  obtain ⟨_, s₁, _, _, h1, -⟩ := yes_seq.1 h
  obtain ⟨-, -, rfl⟩ := yes_str.1 h1
  simp

end YamlSubset
