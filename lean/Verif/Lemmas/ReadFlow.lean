import Verif.Lemmas.ReadScalar

/-! # Reading formatted plain and quoted scalars, and flow collections -/

namespace YamlSubset

open Peg Spec

variable {T : CharTables}

/-- `body` is read as the value `y`, which is not a block collection. -/
structure ValueAt (T : CharTables) (k : List Str) (body r r' : Str) (y : Yaml) : Prop where
  coll : NoColl T (body ++ r)
  alias : NoAlias T (body ++ r)
  left : Left r r'
  reads : Reads T (.rule .yaml_value) (body ++ r) k [(.yaml_value, .yaml y)] r' k

/-- A value the rule `inline_value` reads. -/
theorem reads_inline_value {s r' : Str} {k : List Str} {y : Yaml} (h : NoColl T s) (h1 : s.head? ≠ some '[')
    (h2 : s.head? ≠ some '|') (h3 : s.head? ≠ some '>')
    (hv : Reads T (.rule .inline_value) s k [(.inline_value, .yaml y)] r' k) :
    Reads T (.rule .yaml_value) s k [(.yaml_value, .yaml y)] r' k := by
  refine .rule rfl (.altR (not_hash_here h k) (.altR ?_ (.altR (not_literal h2 k) (.altR (not_folded h3 k) hv)))) fun _ => rfl
  exact .rule (.alt (not_inline_array h1 k) (not_block_array_here h k))

theorem reads_string_value {s r' : Str} {k : List Str} {y : Yaml} (ha : Not T (.rule .anchor) s k)
    (h1 : s.head? ≠ some '[') (h2 : s.head? ≠ some '{') (hv : Reads T (.rule .string) s k [(.string, .yaml y)] r' k) :
    Reads T (.rule .inline_value) s k [(.inline_value, .yaml y)] r' k :=
  .rule rfl (.altR ha (.altR (not_inline_array h1 k) (.altR (not_inline_hash h2 k) hv))) fun _ => rfl

theorem not_head_of {s : Str} {c d : Char} {l : List Char} (h : s.head? = some d) (hd : d ∉ l) (hc : c ∈ l) : s.head? ≠ some c := by
  rw [h]
  rintro ⟨⟩
  exact hd hc

theorem valueAt_plain {s r : Str} (h : BlockPlain T s) (hr : LineEnd r ∨ ((∃ t, r = ' ' :: '#' :: t) ∧ s.getLast? ≠ some ':')) (k) :
    ∃ r', ValueAt T k s r r' (.unquotedString s) := by
  have hr0 : After r := by
    rcases hr with hr | ⟨hr, -⟩
    · exact .inl hr
    · exact .inr hr
  obtain ⟨r', hl, hp⟩ : ∃ r', Left r r' ∧ Reads T (.rule .unquoted_string) (s ++ r) k [(.unquoted_string, .yaml (.unquotedString s))] r' k := by
    rcases hr with hr | ⟨⟨t, rfl⟩, hc⟩
    · refine ⟨r, .inl rfl, .atomic rfl (passes_plain h.nonempty h.line h.noHash h.noColonSpace (fun c hc => (h.first c hc).1)
        (by rcases hr with hr | hr <;> simp [hr]) k) ?_⟩
      show Out.ok _ = _
      have := trim_plain h.last 0
      simp only [indent, List.replicate_zero, List.append_nil] at this
      rw [this]
    · have hp := passes_plain (T := T) (w := s ++ [' ']) (r := '#' :: t) (by simp) (by simpa [LineText] using h.line)
        (by simpa using h.noHash) (colonSpace_sp h.noColonSpace hc)
        (fun c hc => (h.first c (by
          obtain ⟨x, u, hx⟩ := h.cons
          rw [hx] at hc ⊢
          exact hc)).1) (by simp) k
      have := Reads.atomic (q := .unquoted_string) (v := .yaml (.unquotedString s)) rfl hp (by
        show Out.ok _ = _
        have := trim_plain h.last 1
        simp only [indent, List.replicate_one] at this
        rw [this])
      refine ⟨'#' :: t, .inr rfl, ?_⟩
      simpa using this
  obtain ⟨c, u, rfl⟩ := h.cons
  have hf := (h.first c rfl).1
  have hh : (c :: u ++ r).head? = some c := rfl
  refine ⟨r', h.noColl hr0, h.noAlias hr0, hl, ?_⟩
  refine reads_inline_value (h.noColl hr0) (not_head_of hh hf (by simp)) (not_head_of hh hf (by simp)) (not_head_of hh hf (by simp)) ?_
  refine reads_string_value (.rule (not_mark (fun d t he => h.notMark _ d t he (.inr rfl)) hr0.notName h.nonempty k))
    (not_head_of hh hf (by simp)) (not_head_of hh hf (by simp)) ?_
  exact .rule rfl (.altL hp) fun _ => rfl

theorem valueAt_anchor {a r : Str} (h : NameText T a) (hr : After r) (k) : ValueAt T k ('*' :: a) r r (.anchor a) := by
  have hc : NoColl T ('*' :: a ++ r) := noColl_head (by decide)
  refine ⟨hc, noAlias_head (by simp), .inl rfl, ?_⟩
  refine reads_inline_value hc (by simp) (by simp) (by simp) ?_
  exact .rule rfl (.altL (reads_anchor h hr.notName k)) fun _ => rfl

/-! ## quoted scalars -/

theorem single_dq : Single T (.seq (.not (.alts [Rule.lit '"', Rule.lit '\\', Rule.lit '\n'])) Rule.ANY)
    (fun c => c ≠ '"' ∧ c ≠ '\\' ∧ c ≠ '\n') := by
  have hs : Single T (.alts [Rule.lit '"', Rule.lit '\\', Rule.lit '\n']) (fun c => c = '"' ∨ c = '\\' ∨ c = '\n') :=
    (single_lit _).alt ((single_lit _).alt (single_lit _))
  refine .but (fun c r k h => hs.no _ _ (by simpa using h)) (fun k => hs.no _ _ (by simp)) fun c r k h => ⟨r, k, (hs.yes c r k ?_).passes⟩
  grind

theorem single_sq : Single T (.seq (.not (.alts [Rule.lit '\'', Rule.lit '\n'])) Rule.ANY)
    (fun c => c ≠ '\'' ∧ c ≠ '\n') := by
  have hs : Single T (.alts [Rule.lit '\'', Rule.lit '\n']) (fun c => c = '\'' ∨ c = '\n') :=
    (single_lit _).alt (single_lit _)
  refine .but (fun c r k h => hs.no _ _ (by simpa using h)) (fun k => hs.no _ _ (by simp)) fun c r k h => ⟨r, k, (hs.yes c r k ?_).passes⟩
  grind

theorem linesCount_replicate (n : Nat) : linesCount (List.replicate (n + 1) '\n') = n + 1 := by
  simp [linesCount, endsWithChar, List.replicate_succ']

theorem reads_blank_lines {n : Nat} {r : Str} (hn : 1 ≤ n) (hr : r.head? ≠ some '\n') (k) :
    Reads T (.rule .blank_lines) (List.replicate (n + 1) '\n' ++ r) k [(.blank_lines, .nat n)] r k := by
  obtain ⟨m, rfl⟩ : ∃ m, n = m + 1 := ⟨n - 1, by omega⟩
  refine .ruleText (l := []) rfl ?_ ?_
  · have := Reads.seq (T := T) (.lit '\n' _ k) ((single_lit '\n').plus (s := List.replicate (m + 1) '\n') (r := r) (by simp [List.replicate_succ])
      (fun c hc => List.eq_of_mem_replicate hc) (fun c hc h => hr (by rw [hc, h])) k)
    exact this
  · show Consume.blankLines _ = _
    rw [Consume.blankLines, linesCount_replicate]
    rfl

theorem reads_removable {r : Str} (k) : Reads T (.rule .removable_newline) ('\n' :: r) k [(.removable_newline, .unit)] r k :=
  .rule rfl (.lit '\n' r k) fun _ => rfl

theorem not_blank_lines {r : Str} (hr : r.head? ≠ some '\n') (k) : Not T (.rule .blank_lines) ('\n' :: r) k :=
  .rule (.seqR (.lit '\n' r k) (.plus (.lit hr)))

theorem not_blank_lines_head {r : Str} (hr : r.head? ≠ some '\n') (k) : Not T (.rule .blank_lines) r k := .rule (.seqL (.lit hr))
theorem not_removable {r : Str} (hr : r.head? ≠ some '\n') (k) : Not T (.rule .removable_newline) r k := .rule (.lit hr)

/-- A part of a double quoted scalar before a text that does not continue it. -/
theorem reads_dqPart {p : DQPart} (hp : DQPartText p) {r : Str}
    (hs : (∃ s, p = .string s) → ∀ c, r.head? = some c → c = '"' ∨ c = '\\' ∨ c = '\n')
    (hb : (p = .removableNewline ∨ ∃ n, p = .blankLines n) → r.head? ≠ some '\n') (k) :
    Reads T (.rule .double_quote_without_escape) (p.format ++ r) k [(.double_quote_without_escape, .dqPart p)] r k := by
  cases p with
  | string s =>
    obtain ⟨c, t, rfl⟩ : ∃ c t, s = c :: t := List.exists_cons_of_ne_nil hp.1
    have hc := hp.2 c (by simp)
    refine .rule rfl (.altR (.rule (.seqL (.lit (by simpa [DQPart.format] using hc.2.1)))) (.altR (not_blank_lines_head (by simpa [DQPart.format] using hc.2.2) k)
      (.altR (not_removable (by simpa [DQPart.format] using hc.2.2) k)
        (?_ : Reads T _ _ _ [(.double_quote_text, .str (c :: t))] _ _)))) fun _ => rfl
    refine .ruleText rfl (single_dq.plus hp.1 hp.2 (fun d hd h => ?_) k) rfl
    rcases hs ⟨_, rfl⟩ d hd with rfl | rfl | rfl <;> simp at h
  | escapedChar e =>
    refine .rule rfl (.altL (.silent rfl (.seq (.lit '\\' _ k) (?_ : Reads T _ _ _ [(.escaped_double_quote_char_value, .dqEsc e)] _ _)))) fun _ => rfl
    refine .ruleText (t := [e.char]) (l := []) rfl ?_ (by cases e <;> rfl)
    have hs : Single T (.alts [Rule.lit 'n', Rule.lit '\\', Rule.lit 'r', Rule.lit 't', Rule.lit '"', Rule.lit '\n']) _ :=
      (single_lit _).alt ((single_lit _).alt ((single_lit _).alt ((single_lit _).alt ((single_lit _).alt (single_lit _)))))
    exact hs.yes _ r k (by cases e <;> simp [DQEscapedChar.char])
  | blankLines n =>
    have hr := hb (.inr ⟨n, rfl⟩)
    refine .rule rfl (.altR (.rule (.seqL (.lit (by simp [DQPart.format, List.replicate_succ])))) (.altL (reads_blank_lines hp hr k))) fun _ => rfl
  | removableNewline =>
    have hr := hb (.inl rfl)
    exact .rule rfl (.altR (.rule (.seqL (.lit (by simp [DQPart.format])))) (.altR (not_blank_lines hr k) (.altL (reads_removable k)))) fun _ => rfl

theorem dqPart_head {p : DQPart} (hp : DQPartText p) (r : Str) : ∃ c t, p.format ++ r = c :: t ∧ c ≠ '"' ∧
    ((∃ s, p = .string s) ∨ c = '\\' ∨ c = '\n') ∧ (c = '\n' → p = .removableNewline ∨ ∃ n, p = .blankLines n) := by
  cases p with
  | string s =>
    obtain ⟨c, t, rfl⟩ : ∃ c t, s = c :: t := List.exists_cons_of_ne_nil hp.1
    have hc := hp.2 c (by simp)
    exact ⟨c, t ++ r, rfl, hc.1, .inl ⟨_, rfl⟩, fun h => absurd h hc.2.2⟩
  | escapedChar e => exact ⟨_, _, rfl, by simp, .inr (.inl rfl), by simp⟩
  | blankLines n => exact ⟨'\n', List.replicate n '\n' ++ r, by simp [DQPart.format, List.replicate_succ], by simp, .inr (.inr rfl), fun _ => .inr ⟨n, rfl⟩⟩
  | removableNewline => exact ⟨_, _, rfl, by simp, .inr (.inr rfl), fun _ => .inl rfl⟩

theorem Spec.DQChain.head {p : DQPart} {ps : List DQPart} (h : DQChain (p :: ps)) : DQPartText p := by
  cases h <;> assumption

theorem reads_dqParts {ps : List DQPart} (h : DQChain ps) {r : Str} (k) :
    Reads T (.star (.rule .double_quote_without_escape)) (ps.flatMap DQPart.format ++ '"' :: r) k
      (ps.map fun p => (.double_quote_without_escape, .dqPart p)) ('"' :: r) k := by
  induction h with
  | nil =>
    refine .starNil (.rule (.alt (.rule (.seqL (.lit (by simp)))) (.alt (not_blank_lines_head (by simp) k) (.alt (not_removable (by simp) k) ?_))))
    exact .rule (.plus (single_dq.no _ _ (by simp)))
  | one hp =>
    have h1 := reads_dqPart hp (r := '"' :: r) (by simp) (by simp) k (T := T)
    have h2 : Reads T (.star (.rule .double_quote_without_escape)) ('"' :: r) k [] ('"' :: r) k := by
      refine .starNil (.rule (.alt (.rule (.seqL (.lit (by simp)))) (.alt (not_blank_lines_head (by simp) k) (.alt (not_removable (by simp) k) ?_))))
      exact .rule (.plus (single_dq.no _ _ (by simp)))
    simpa using Reads.star h1 h2
  | @cons p q ps hp ht hb hps ih =>
    have hq := hps.head
    obtain ⟨c, t, he, hc1, hc2, hc3⟩ := dqPart_head hq (ps.flatMap DQPart.format ++ '"' :: r)
    have hx : (q :: ps).flatMap DQPart.format ++ '"' :: r = c :: t := by simpa using he
    have h1 := reads_dqPart hp (r := (q :: ps).flatMap DQPart.format ++ '"' :: r) (T := T) (by
      rintro ⟨s, rfl⟩ d hd
      rw [hx] at hd
      cases hd
      rcases hc2 with ⟨s', rfl⟩ | h
      · exact absurd ⟨_, _, rfl, rfl⟩ ht
      · exact .inr h) (by
      intro hn hd
      rw [hx] at hd
      cases hd
      exact hb ⟨hn, hc3 rfl⟩) k
    simpa using Reads.star h1 ih

theorem reads_double_quoted {ps : List DQPart} (h : DQChain ps) {r r' : Str} {n : Nat} (hr : r = indent n ++ r') (hr' : NotSp r') (k) :
    Reads T (.rule .double_quoted_string) ('"' :: (ps.flatMap DQPart.format ++ '"' :: r)) k
      [(.double_quoted_string, .yaml (.doubleQuotedString ps))] r' k := by
  subst hr
  have hc : Reads T (.rule .double_quote_content) (ps.flatMap DQPart.format ++ '"' :: (indent n ++ r')) (['"'] :: k)
      [(.double_quote_content, .dqParts ps)] ('"' :: (indent n ++ r')) (['"'] :: k) := by
    refine .rule rfl (reads_dqParts h _) fun t => ?_
    show Consume.doubleQuoteContent _ = _
    rw [Consume.doubleQuoteContent, many_oks _ _ Val.dqPart (fun _ => rfl)]
    rfl
  exact .rule rfl (.seq (.push (t := ['"']) (.lit '"' _ k)) (.seq hc (.seq (.pop ['"'] _ k) (reads_sps hr' k)))) fun _ => rfl

/-- A part of a single quoted scalar before a text that does not continue it. -/
theorem reads_sqPart {p : SQPart} (hp : SQPartText p) {r : Str}
    (hs : (∃ s, p = .string s) → ∀ c, r.head? = some c → c = '\'' ∨ c = '\n')
    (hb : (p = .removableNewline ∨ ∃ n, p = .blankLines n) → r.head? ≠ some '\n') (k) :
    Reads T (.rule .escaped_single_quote_char) (p.format ++ r) k [(.escaped_single_quote_char, .sqPart p)] r k := by
  cases p with
  | string s =>
    obtain ⟨c, t, rfl⟩ : ∃ c t, s = c :: t := List.exists_cons_of_ne_nil hp.1
    have hc := hp.2 c (by simp)
    refine .rule rfl (.altR (.rule (.seqL (.lit (by simpa [SQPart.format] using hc.1)))) (.altR (not_blank_lines_head (by simpa [SQPart.format] using hc.2) k)
      (.altR (not_removable (by simpa [SQPart.format] using hc.2) k)
        (?_ : Reads T _ _ _ [(.single_quote_text, .str (c :: t))] _ _)))) fun _ => rfl
    refine .ruleText rfl (single_sq.plus hp.1 hp.2 (fun d hd h => ?_) k) rfl
    rcases hs ⟨_, rfl⟩ d hd with rfl | rfl <;> simp at h
  | escapedChar e =>
    refine .rule rfl (.altL (.silent rfl (.seq (.lit '\'' _ k) (?_ : Reads T _ _ _ [(.single_quote, .sqEsc e)] _ _)))) fun _ => rfl
    refine .ruleText (t := [e.char]) (l := []) rfl ?_ (by cases e; rfl)
    cases e
    exact .lit '\'' r k
  | blankLines n =>
    have hr := hb (.inr ⟨n, rfl⟩)
    refine .rule rfl (.altR (.rule (.seqL (.lit (by simp [SQPart.format, List.replicate_succ])))) (.altL (reads_blank_lines hp hr k))) fun _ => rfl
  | removableNewline =>
    have hr := hb (.inl rfl)
    exact .rule rfl (.altR (.rule (.seqL (.lit (by simp [SQPart.format])))) (.altR (not_blank_lines hr k) (.altL (reads_removable k)))) fun _ => rfl

theorem sqPart_head {p : SQPart} (hp : SQPartText p) (r : Str) : ∃ c t, p.format ++ r = c :: t ∧
    ((∃ s, p = .string s) ∨ c = '\'' ∨ c = '\n') ∧ (c = '\n' → p = .removableNewline ∨ ∃ n, p = .blankLines n) := by
  cases p with
  | string s =>
    obtain ⟨c, t, rfl⟩ : ∃ c t, s = c :: t := List.exists_cons_of_ne_nil hp.1
    have hc := hp.2 c (by simp)
    exact ⟨c, t ++ r, rfl, .inl ⟨_, rfl⟩, fun h => absurd h hc.2⟩
  | escapedChar e => exact ⟨_, _, rfl, .inr (.inl rfl), by simp⟩
  | blankLines n => exact ⟨'\n', List.replicate n '\n' ++ r, by simp [SQPart.format, List.replicate_succ], .inr (.inr rfl), fun _ => .inr ⟨n, rfl⟩⟩
  | removableNewline => exact ⟨_, _, rfl, .inr (.inr rfl), fun _ => .inl rfl⟩

theorem Spec.SQChain.head {p : SQPart} {ps : List SQPart} (h : SQChain (p :: ps)) : SQPartText p := by
  cases h <;> assumption

theorem not_sqPart {r : Str} (hr : r.head? ≠ some '\'') (k) : Not T (.rule .escaped_single_quote_char) ('\'' :: r) k := by
  refine .rule (.alt (.rule (.seqR (.lit '\'' r k) (.rule (.lit hr)))) (.alt (not_blank_lines_head (by simp) k) (.alt (not_removable (by simp) k) ?_)))
  exact .rule (.plus (single_sq.no _ _ (by simp)))

theorem reads_sqParts {ps : List SQPart} (h : SQChain ps) {r : Str} (hr : r.head? ≠ some '\'') (k) :
    Reads T (.star (.rule .escaped_single_quote_char)) (ps.flatMap SQPart.format ++ '\'' :: r) k
      (ps.map fun p => (.escaped_single_quote_char, .sqPart p)) ('\'' :: r) k := by
  induction h with
  | nil => exact .starNil (not_sqPart hr k)
  | one hp =>
    have h1 := reads_sqPart hp (r := '\'' :: r) (by simp) (by simp) k (T := T)
    simpa using Reads.star h1 (.starNil (not_sqPart hr k))
  | @cons p q ps hp ht hb hps ih =>
    have hq := hps.head
    obtain ⟨c, t, he, hc2, hc3⟩ := sqPart_head hq (ps.flatMap SQPart.format ++ '\'' :: r)
    have hx : (q :: ps).flatMap SQPart.format ++ '\'' :: r = c :: t := by simpa using he
    have h1 := reads_sqPart hp (r := (q :: ps).flatMap SQPart.format ++ '\'' :: r) (T := T) (by
      rintro ⟨s, rfl⟩ d hd
      rw [hx] at hd
      cases hd
      rcases hc2 with ⟨s', rfl⟩ | h
      · exact absurd ⟨_, _, rfl, rfl⟩ ht
      · exact h) (by
      intro hn hd
      rw [hx] at hd
      cases hd
      exact hb ⟨hn, hc3 rfl⟩) k
    simpa using Reads.star h1 ih

theorem reads_single_quoted {ps : List SQPart} (h : SQChain ps) {r r' : Str} {n : Nat} (hr : r = indent n ++ r') (hr' : NotSp r')
    (hq : r.head? ≠ some '\'') (k) :
    Reads T (.rule .single_quoted_string) ('\'' :: (ps.flatMap SQPart.format ++ '\'' :: r)) k
      [(.single_quoted_string, .yaml (.singleQuotedString ps))] r' k := by
  have hc : Reads T (.rule .single_quote_content) (ps.flatMap SQPart.format ++ '\'' :: r) (['\''] :: k)
      [(.single_quote_content, .sqParts ps)] ('\'' :: r) (['\''] :: k) := by
    refine .rule rfl (reads_sqParts h hq _) fun t => ?_
    show Consume.singleQuoteContent _ = _
    rw [Consume.singleQuoteContent, many_oks _ _ Val.sqPart (fun _ => rfl)]
    rfl
  subst hr
  exact .rule rfl (.seq (.push (t := ['\'']) (.lit '\'' _ k)) (.seq hc (.seq (.pop ['\''] _ k) (reads_sps hr' k)))) fun _ => rfl

theorem After.split {r : Str} (h : After r) : ∃ n r', r = indent n ++ r' ∧ NotSp r' ∧ Left r r' := by
  rcases h with h | ⟨t, rfl⟩
  · exact ⟨0, r, rfl, h.notSp, .inl rfl⟩
  · exact ⟨1, '#' :: t, rfl, by simp [NotSp]; decide, .inr rfl⟩

theorem After.noQuote {r : Str} (h : After r) : r.head? ≠ some '\'' := by
  rcases h with (rfl | h) | ⟨t, rfl⟩
  · simp
  · simp [h]
  · simp

theorem not_unquoted_head {c : Char} (h : c ∈ ['[', ']', '{', '}', '"', '\'', '#', '>', '|']) (t : Str) (k) :
    Not T (.rule .unquoted_string) (c :: t) k := by
  simp only [List.mem_cons, List.not_mem_nil, or_false] at h
  refine .rule (.seqL (.rule (.seqL (.not (.rule (?_ : Passes T _ _ _ t k))))))
  have hd : ∀ (d e : Char) (r : Str), c ≠ d → Not T (Rule.lit d) (c :: r) k := fun d e r hd => .lit (by simpa using hd)
  have h2 : c ≠ ':' → Not T (.str [':', ' ']) (c :: t) k := fun hc => no_lit2.2 fun r hr => by cases hr; exact hc rfl
  rcases h with rfl | rfl | rfl | rfl | rfl | rfl | rfl | rfl | rfl
  · exact .altL (.lit _ t k)
  · exact .altR (.lit (by simp)) (.altL (.lit _ t k))
  · exact .altR (.lit (by simp)) (.altR (.lit (by simp)) (.altL (.lit _ t k)))
  · exact .altR (.lit (by simp)) (.altR (.lit (by simp)) (.altR (.lit (by simp)) (.altL (.lit _ t k))))
  · exact .altR (.lit (by simp)) (.altR (.lit (by simp)) (.altR (.lit (by simp)) (.altR (.lit (by simp)) (.altR (h2 (by decide)) (.altL (.lit _ t k))))))
  · exact .altR (.lit (by simp)) (.altR (.lit (by simp)) (.altR (.lit (by simp)) (.altR (.lit (by simp)) (.altR (h2 (by decide)) (.altR (.lit (by simp))
      (.altL (.lit _ t k)))))))
  · exact .altR (.lit (by simp)) (.altR (.lit (by simp)) (.altR (.lit (by simp)) (.altR (.lit (by simp)) (.altR (h2 (by decide)) (.altR (.lit (by simp))
      (.altR (.lit (by simp)) (.altL (.lit _ t k))))))))
  · exact .altR (.lit (by simp)) (.altR (.lit (by simp)) (.altR (.lit (by simp)) (.altR (.lit (by simp)) (.altR (h2 (by decide)) (.altR (.lit (by simp))
      (.altR (.lit (by simp)) (.altR (.lit (by simp)) (.altL (.lit _ t k)))))))))
  · exact .altR (.lit (by simp)) (.altR (.lit (by simp)) (.altR (.lit (by simp)) (.altR (.lit (by simp)) (.altR (h2 (by decide)) (.altR (.lit (by simp))
      (.altR (.lit (by simp)) (.altR (.lit (by simp)) (.altR (.lit (by simp)) (.altL (.lit _ t k))))))))))

theorem not_unquoted_inline_head {c : Char} (h : c ∈ [',', '[', ']', '{', '}', '"', '\'', '#']) (t : Str) (k) :
    Not T (.rule .unquoted_inline_string) (c :: t) k := by
  simp only [List.mem_cons, List.not_mem_nil, or_false] at h
  refine .rule (.seqL (.rule (.seqL (.not (.rule (?_ : Passes T _ _ _ t k))))))
  have h2 : c ≠ ':' → Not T (.str [':', ' ']) (c :: t) k := fun hc => no_lit2.2 fun r hr => by cases hr; exact hc rfl
  rcases h with rfl | rfl | rfl | rfl | rfl | rfl | rfl | rfl
  · exact .altL (.lit _ t k)
  · exact .altR (.lit (by simp)) (.altL (.lit _ t k))
  · exact .altR (.lit (by simp)) (.altR (.lit (by simp)) (.altL (.lit _ t k)))
  · exact .altR (.lit (by simp)) (.altR (.lit (by simp)) (.altR (.lit (by simp)) (.altL (.lit _ t k))))
  · exact .altR (.lit (by simp)) (.altR (.lit (by simp)) (.altR (.lit (by simp)) (.altR (.lit (by simp)) (.altL (.lit _ t k)))))
  · exact .altR (.lit (by simp)) (.altR (.lit (by simp)) (.altR (.lit (by simp)) (.altR (.lit (by simp)) (.altR (.lit (by simp)) (.altR (h2 (by decide))
      (.altL (.lit _ t k)))))))
  · exact .altR (.lit (by simp)) (.altR (.lit (by simp)) (.altR (.lit (by simp)) (.altR (.lit (by simp)) (.altR (.lit (by simp)) (.altR (h2 (by decide))
      (.altR (.lit (by simp)) (.altL (.lit _ t k))))))))
  · exact .altR (.lit (by simp)) (.altR (.lit (by simp)) (.altR (.lit (by simp)) (.altR (.lit (by simp)) (.altR (.lit (by simp)) (.altR (h2 (by decide))
      (.altR (.lit (by simp)) (.altR (.lit (by simp)) (.altL (.lit _ t k)))))))))

theorem not_anchor_head {s : Str} (h : s.head? ≠ some '*') (k) : Not T (.rule .anchor) s k := .rule (.seqL (.lit h))

theorem valueAt_double {ps : List DQPart} (h : DQChain ps) {r : Str} (hr : After r) (k) :
    ∃ r', ValueAt T k ('"' :: (ps.flatMap DQPart.format ++ ['"'])) r r' (.doubleQuotedString ps) := by
  obtain ⟨n, r', he, hr', hl⟩ := hr.split
  have hx : '"' :: (ps.flatMap DQPart.format ++ ['"']) ++ r = '"' :: (ps.flatMap DQPart.format ++ '"' :: r) := by simp
  have hc : NoColl T ('"' :: (ps.flatMap DQPart.format ++ '"' :: r)) := noColl_head (by decide)
  refine ⟨r', by rw [hx]; exact hc, by rw [hx]; exact noAlias_head (by simp), hl, ?_⟩
  rw [hx]
  refine reads_inline_value hc (by simp) (by simp) (by simp) (reads_string_value (not_anchor_head (by simp) k) (by simp) (by simp) ?_)
  exact .rule rfl (.altR (not_unquoted_head (by simp) _ k) (.altL (reads_double_quoted h he hr' k))) fun _ => rfl

theorem not_double {s : Str} (h : s.head? ≠ some '"') (k) : Not T (.rule .double_quoted_string) s k := .rule (.seqL (.push (.lit h)))
theorem not_single {s : Str} (h : s.head? ≠ some '\'') (k) : Not T (.rule .single_quoted_string) s k := .rule (.seqL (.push (.lit h)))

theorem valueAt_single {ps : List SQPart} (h : SQChain ps) {r : Str} (hr : After r) (k) :
    ∃ r', ValueAt T k ('\'' :: (ps.flatMap SQPart.format ++ ['\''])) r r' (.singleQuotedString ps) := by
  obtain ⟨n, r', he, hr', hl⟩ := hr.split
  have hx : '\'' :: (ps.flatMap SQPart.format ++ ['\'']) ++ r = '\'' :: (ps.flatMap SQPart.format ++ '\'' :: r) := by simp
  have hc : NoColl T ('\'' :: (ps.flatMap SQPart.format ++ '\'' :: r)) := noColl_head (by decide)
  refine ⟨r', by rw [hx]; exact hc, by rw [hx]; exact noAlias_head (by simp), hl, ?_⟩
  rw [hx]
  refine reads_inline_value hc (by simp) (by simp) (by simp) (reads_string_value (not_anchor_head (by simp) k) (by simp) (by simp) ?_)
  exact .rule rfl (.altR (not_unquoted_head (by simp) _ k) (.altR (not_double (by simp) k) (reads_single_quoted h he hr' hr.noQuote k))) fun _ => rfl

/-! ## flow collections -/

/-- The text after a value in a flow collection. -/
def FlowEnd (r : Str) : Prop := r.head? = some ',' ∨ (∃ t, r = ' ' :: ']' :: t) ∨ ∃ t, r = ' ' :: '}' :: t

/-- A value in a flow collection is read. -/
def FlowReads (T : CharTables) (y : Yaml) : Prop := ∀ r k, FlowEnd r → ∃ body r', y.format 0 none = ' ' :: body ∧
  (∀ c, (body ++ r).head? = some c → c ≠ ' ' ∧ c ≠ '\n' ∧ c ≠ '\r') ∧ Left r r' ∧
  Reads T (.rule .inline_array_value) (body ++ r) k [(.inline_array_value, .yaml y)] r' k

theorem FlowEnd.split {r : Str} (h : FlowEnd r) : ∃ n r', r = indent n ++ r' ∧ NotSp r' ∧ Left r r' ∧
    (r'.head? = some ',' ∨ r'.head? = some ']' ∨ r'.head? = some '}') := by
  rcases h with h | ⟨t, rfl⟩ | ⟨t, rfl⟩
  · exact ⟨0, r, rfl, by intro c hc; rw [h] at hc; cases hc; decide, .inl rfl, .inl h⟩
  · exact ⟨1, ']' :: t, rfl, by simp [NotSp]; decide, .inr rfl, .inr (.inl rfl)⟩
  · exact ⟨1, '}' :: t, rfl, by simp [NotSp]; decide, .inr rfl, .inr (.inr rfl)⟩

theorem FlowEnd.notName {r : Str} (h : FlowEnd r) : NotName T r := by
  intro c hc
  rcases h with h | ⟨t, rfl⟩ | ⟨t, rfl⟩
  · rw [h] at hc; cases hc; exact not_nameChar (by decide)
  · cases hc; exact not_nameChar (by decide)
  · cases hc; exact not_nameChar (by decide)

theorem FlowEnd.noQuote {r : Str} (h : FlowEnd r) : r.head? ≠ some '\'' := by
  rcases h with h | ⟨t, rfl⟩ | ⟨t, rfl⟩
  · simp [h]
  · simp
  · simp

/-- The text of a plain scalar in a flow collection up to where it ends. -/
theorem passes_flowPlain {w r : Str} (hw : w ≠ []) (hl : LineText w) (hcs : ∀ a b, w ≠ a ++ ':' :: ' ' :: b)
    (hch : ∀ c ∈ w, c ∉ [',', '[', ']', '{', '}', '"', '#']) (ht : ∀ c ∈ w.tail, c ≠ '>' ∧ c ≠ '|') (hq : w.head? ≠ some '\'')
    (hr : r.head? = some ',' ∨ r.head? = some ']' ∨ r.head? = some '}' ∨ r.head? = some '\n' ∨ r.head? = some '\r') (k) :
    Passes T (Rule.body T .unquoted_inline_string) (w ++ r) k r k := by
  have hnl : ∀ c t, c ∈ w → Not T Rule.NEWLINE (c :: t) k := fun c t hc => not_newline (by simpa using LineText.mem hl c hc)
  have hcs' : ∀ pre c t, w = pre ++ c :: t → Not T (.str [':', ' ']) (c :: (t ++ r)) k := by
    intro pre c t he
    refine no_lit2.2 fun u hu => ?_
    simp only [List.cons.injEq] at hu
    obtain ⟨rfl, hu⟩ := hu
    cases t with
    | nil =>
      simp only [List.nil_append] at hu
      subst hu
      rcases hr with h | h | h | h | h <;> cases h
    | cons x t =>
      simp only [List.cons_append, List.cons.injEq] at hu
      exact hcs pre t (by rw [he, hu.1])
  cases w with
  | nil => exact absurd rfl hw
  | cons c w =>
    refine .seq (.rule (.seq (.not (.rule ?_)) (.any c _ k))) (.run ?_ ?_)
    · have hc := hch c (by simp)
      simp only [List.mem_cons, List.not_mem_nil, or_false, not_or] at hc
      refine not_alts _ (by simp) ?_
      have hcc : c ≠ '\'' := by simpa using hq
      have h1 := hcs' [] c w rfl
      have h2 := hnl c (w ++ r) (by simp)
      simp only [List.mem_cons, List.not_mem_nil, or_false, forall_eq_or_imp, forall_eq]
      refine ⟨.lit ?_, .lit ?_, .lit ?_, .lit ?_, .lit ?_, h1, .lit ?_, .lit ?_, .lit ?_, h2⟩ <;> simp <;> grind
    · intro pre d t he
      have h1 := hcs' (c :: pre) d t (by rw [he]; rfl)
      have h2 := hnl d (t ++ r) (by rw [he]; simp)
      have hd := hch d (by rw [he]; simp)
      have hd' := ht d (by rw [List.tail_cons, he]; simp)
      simp only [List.mem_cons, List.not_mem_nil, or_false, not_or] at hd
      refine .rule (.seq (.not (.rule ?_)) (.any d _ k))
      refine not_alts _ (by simp) ?_
      simp only [List.mem_cons, List.not_mem_nil, or_false, forall_eq_or_imp, forall_eq]
      refine ⟨.lit ?_, .lit ?_, .lit ?_, .lit ?_, .lit ?_, h1, .lit ?_, .lit ?_, .lit ?_, .lit ?_, h2⟩ <;> simp <;> grind
    · refine .rule (.seqL ?_)
      cases r with
      | nil => simp at hr
      | cons d r =>
        have hp : ∃ r' k', Passes T (Rule.body T .disallowed_unquoted_inline_string_elements) (d :: r) k r' k' := by
          have hn : ∀ x : Char, x = '\n' ∨ x = '\r' →
              ∃ r' k', Passes T (Rule.body T .disallowed_unquoted_inline_string_elements) (x :: r) k r' k' := by
            intro x hx
            obtain ⟨r', k', hp⟩ := passes_newline (T := T) hx r k
            refine ⟨r', k', ?_⟩
            rcases hx with rfl | rfl
            all_goals
              exact .altR (.lit (by simp)) (.altR (.lit (by simp)) (.altR (.lit (by simp)) (.altR (.lit (by simp)) (.altR (.lit (by simp))
                (.altR (no_lit2.2 (by simp)) (.altR (.lit (by simp)) (.altR (.lit (by simp)) (.altR (.lit (by simp)) (.altR (.lit (by simp)) hp)))))))))
          rcases hr with h | h | h | h | h <;> cases h
          · exact ⟨_, _, .altL (.lit _ r k)⟩
          · exact ⟨_, _, .altR (.lit (by simp)) (.altR (.lit (by simp)) (.altL (.lit _ r k)))⟩
          · exact ⟨_, _, .altR (.lit (by simp)) (.altR (.lit (by simp)) (.altR (.lit (by simp)) (.altR (.lit (by simp)) (.altL (.lit _ r k)))))⟩
          · exact hn _ (.inl rfl)
          · exact hn _ (.inr rfl)
        obtain ⟨r', k', hp⟩ := hp
        exact .not (.rule hp)

theorem reads_flow_string {s r' : Str} {k : List Str} {y : Yaml} (ha : Not T (.rule .anchor) s k)
    (h1 : s.head? ≠ some '[') (h2 : s.head? ≠ some '{')
    (hv : Reads T (.rule .inline_array_string) s k [(.inline_array_string, .yaml y)] r' k) :
    Reads T (.rule .inline_array_value) s k [(.inline_array_value, .yaml y)] r' k :=
  .rule rfl (.altR ha (.altR (not_inline_array h1 k) (.altR (not_inline_hash h2 k) hv))) fun _ => rfl

theorem flowReads_plain {s : Str} (h : FlowPlain T s) : FlowReads T (.unquotedString s) := by
  intro r k hr
  obtain ⟨n, r', he, hr', hl, hstop⟩ := hr.split
  obtain ⟨c, t, hs⟩ : ∃ c t, s = c :: t := List.exists_cons_of_ne_nil h.nonempty
  have hmem : ∀ d ∈ s ++ indent n, d ∈ s ∨ d = ' ' := by
    intro d hd
    rcases List.mem_append.1 hd with hd | hd
    · exact .inl hd
    · exact .inr (List.eq_of_mem_replicate hd)
  have hn : n ≤ 1 := by
    rcases hr with hr | ⟨t, rfl⟩ | ⟨t, rfl⟩
    · rw [he] at hr; cases n with
      | zero => omega
      | succ n => simp [indent, List.replicate_succ] at hr
    all_goals
      rcases n with _ | _ | n
      · omega
      · omega
      · simp [indent, List.replicate_succ] at he
  have hp : Passes T (Rule.body T .unquoted_inline_string) ((s ++ indent n) ++ r') k r' k := by
    refine passes_flowPlain (by simp [h.nonempty]) ?_ ?_ ?_ ?_ (by rw [hs]; simpa [hs] using h.first.2)
      (by rcases hstop with h | h | h <;> simp [h]) k
    · apply line_of_not
      intro d hd
      rcases hmem d hd with hd | rfl
      · exact LineText.mem h.line d hd
      · decide
    · rcases n with _ | _ | n
      · simpa [indent] using h.noColonSpace
      · exact colonSpace_sp h.noColonSpace h.last.2
      · omega
    · intro d hd
      rcases hmem d hd with hd | rfl
      · exact h.chars d hd
      · decide
    · intro d hd
      rw [hs, List.cons_append, List.tail_cons] at hd
      rcases List.mem_append.1 hd with hd | hd
      · exact h.tail d (by simpa [hs] using hd)
      · rw [List.eq_of_mem_replicate hd]; decide
  have hread := Reads.atomic (q := .unquoted_inline_string) (v := .yaml (.unquotedString s)) rfl hp (by
    show Out.ok _ = _
    rw [trim_plain h.last.1 n])
  rw [List.append_assoc, ← he] at hread
  have hc := h.chars c (by simp [hs])
  have hh : (s ++ r).head? = some c := by simp [hs]
  refine ⟨s, r', rfl, ?_, hl, ?_⟩
  · intro d hd
    rw [hh] at hd
    cases hd
    refine ⟨?_, LineText.mem h.line c (by simp [hs])⟩
    rintro rfl
    exact h.first.1 (by simp [hs])
  · refine reads_flow_string (.rule (not_mark (fun d t he => h.notReference d t he) hr.notName h.nonempty k))
      (not_head_of hh hc (by simp)) (not_head_of hh hc (by simp)) ?_
    exact .rule rfl (.altL hread) fun _ => rfl

theorem flowReads_double {ps : List DQPart} (h : DQChain ps) : FlowReads T (.doubleQuotedString ps) := by
  intro r k hr
  obtain ⟨n, r', he, hr', hl, -⟩ := hr.split
  refine ⟨'"' :: (ps.flatMap DQPart.format ++ ['"']), r', rfl, by simp, hl, ?_⟩
  have hx : '"' :: (ps.flatMap DQPart.format ++ ['"']) ++ r = '"' :: (ps.flatMap DQPart.format ++ '"' :: r) := by simp
  rw [hx]
  refine reads_flow_string (not_anchor_head (by simp) k) (by simp) (by simp) ?_
  exact .rule rfl (.altR (not_unquoted_inline_head (by simp) _ k) (.altL (reads_double_quoted h he hr' k))) fun _ => rfl

theorem flowReads_single {ps : List SQPart} (h : SQChain ps) : FlowReads T (.singleQuotedString ps) := by
  intro r k hr
  obtain ⟨n, r', he, hr', hl, -⟩ := hr.split
  refine ⟨'\'' :: (ps.flatMap SQPart.format ++ ['\'']), r', rfl, by simp, hl, ?_⟩
  have hx : '\'' :: (ps.flatMap SQPart.format ++ ['\'']) ++ r = '\'' :: (ps.flatMap SQPart.format ++ '\'' :: r) := by simp
  rw [hx]
  refine reads_flow_string (not_anchor_head (by simp) k) (by simp) (by simp) ?_
  exact .rule rfl (.altR (not_unquoted_inline_head (by simp) _ k) (.altR (not_double (by simp) k) (reads_single_quoted h he hr' hr.noQuote k))) fun _ => rfl

theorem flowReads_anchor {a : Str} (h : NameText T a) : FlowReads T (.anchor a) := by
  intro r k hr
  exact ⟨'*' :: a, r, rfl, by simp, .inl rfl, .rule rfl (.altL (reads_anchor h hr.notName k)) fun _ => rfl⟩

theorem elements_flowEnd (es : List Yaml) (r : Str) : FlowEnd (formatInlineElements false es ++ ' ' :: ']' :: r) := by
  cases es with
  | nil => exact .inr (.inl ⟨r, rfl⟩)
  | cons y t => exact .inl (by simp [formatInlineElements])

theorem reads_elements_tail {es : List Yaml} (h : ∀ y ∈ es, FlowReads T y) {q r : Str} (k)
    (hq : Left (formatInlineElements false es ++ ' ' :: ']' :: r) q) :
    ∃ n, n ≤ 1 ∧ Reads T (.star (.seqs [.rule .spaces, Rule.lit ',', .rule .spaces, .rule .inline_array_value])) q k
      (es.map fun y => (.inline_array_value, .yaml y)) (indent n ++ ']' :: r) k := by
  induction es generalizing q with
  | nil =>
    obtain ⟨n, hn, rfl⟩ : ∃ n, n ≤ 1 ∧ q = indent n ++ ']' :: r := by
      rcases hq with rfl | hq
      · exact ⟨1, by omega, rfl⟩
      · simp only [formatInlineElements, List.nil_append, List.cons.injEq, true_and] at hq
        exact ⟨0, by omega, hq.symm⟩
    exact ⟨n, hn, .starNil (.seqR (reads_spaces (by simp) k) (.seqL (.lit (by simp))))⟩
  | cons y t ih =>
    have he : formatInlineElements false (y :: t) ++ ' ' :: ']' :: r =
        ',' :: (y.format 0 none ++ (formatInlineElements false t ++ ' ' :: ']' :: r)) := by simp [formatInlineElements]
    rw [he] at hq
    obtain rfl : q = ',' :: (y.format 0 none ++ (formatInlineElements false t ++ ' ' :: ']' :: r)) := by
      rcases hq with hq | hq
      · exact hq
      · simp at hq
    obtain ⟨body, r', hb, hh, hl, hread⟩ := h y (by simp) _ k (elements_flowEnd t r)
    obtain ⟨n, hn, htail⟩ := ih (fun z hz => h z (by simp [hz])) hl
    refine ⟨n, hn, ?_⟩
    rw [hb]
    have h0 := reads_spaces (T := T) (n := 0) (r := ',' :: (' ' :: body ++ (formatInlineElements false t ++ ' ' :: ']' :: r))) (by simp) k
    have h1 := reads_spaces (T := T) (n := 1) hh k
    exact Reads.star (.seq h0 (.seq (.lit ',' _ k) (.seq h1 hread))) htail

theorem act_inline_array (t : Str) (es : List Yaml) :
    act .inline_array t (oks (es.map fun y => (Rule.inline_array_value, Val.yaml y))) = .ok (.yaml (.inlineArray es)) := by
  show Consume.inlineArray _ = _
  rw [Consume.inlineArray, many_oks _ _ Val.yaml (fun _ => rfl)]
  rfl

/-- The text of a flow sequence. -/
theorem format_inline_array (es : List Yaml) (n p) : (Yaml.inlineArray es).format n p =
    ' ' :: '[' :: (formatInlineElements true es ++ (if es.isEmpty then [] else [' ']) ++ [']']) := by
  simp [Yaml.format]

theorem not_array_value_bracket {c : Char} (hc : c = ']' ∨ c = '}') (r : Str) (k) : Not T (.rule .inline_array_value) (c :: r) k := by
  have h1 : c ∈ [',', '[', ']', '{', '}', '"', '\'', '#'] := by rcases hc with rfl | rfl <;> simp
  refine .rule (.alt (not_anchor_head ?_ k) (.alt (not_inline_array ?_ k) (.alt (not_inline_hash ?_ k)
    (.rule (.alt (not_unquoted_inline_head h1 r k) (.alt (not_double ?_ k) (not_single ?_ k))))))) <;> rcases hc with rfl | rfl <;> simp

theorem reads_inline_array {es : List Yaml} (h : ∀ y ∈ es, FlowReads T y) (r : Str) (k) :
    Reads T (.rule .inline_array) ('[' :: (formatInlineElements true es ++ (if es.isEmpty then [] else [' ']) ++ [']']) ++ r) k
      [(.inline_array, .yaml (.inlineArray es))] r k := by
  refine .rule (l := es.map fun y => (.inline_array_value, .yaml y)) rfl ?_ fun t => act_inline_array t es
  cases es with
  | nil =>
    have h0 := reads_spaces (T := T) (n := 0) (r := ']' :: r) (by simp) k
    exact .seq (l₂ := []) (.lit '[' _ k) (.seq (l₁ := []) (l₂ := []) (.optNone (.seqR h0 (.seqL (not_array_value_bracket (.inl rfl) r k)))) (.seq h0 (.lit ']' r k)))
  | cons y t =>
    obtain ⟨body, r', hb, hh, hl, hread⟩ := h y (by simp) _ k (elements_flowEnd t r)
    obtain ⟨n, hn, htail⟩ := reads_elements_tail (fun z hz => h z (by simp [hz])) k hl
    have he : '[' :: (formatInlineElements true (y :: t) ++ (if (y :: t).isEmpty then [] else [' ']) ++ [']']) ++ r =
        '[' :: ' ' :: (body ++ (formatInlineElements false t ++ ' ' :: ']' :: r)) := by simp [formatInlineElements, hb]
    rw [he]
    have h1 := reads_spaces (T := T) (n := 1) hh k
    have h2 := reads_spaces (T := T) (n := n) (r := ']' :: r) (by simp) k
    have := Reads.seq (.lit '[' _ k) (.seq (.opt (.seq h1 (.seq hread htail))) (.seq h2 (.lit ']' r k)))
    simp only [List.append_nil, List.nil_append, List.cons_append] at this
    exact this

theorem entries_flowEnd (es : List (Str × Yaml)) (r : Str) : FlowEnd (formatInlineEntries false es ++ ' ' :: '}' :: r) := by
  cases es with
  | nil => exact .inr (.inr ⟨r, rfl⟩)
  | cons y t => exact .inl (by simp [formatInlineEntries])

theorem reads_inline_entry {kv : Str × Yaml} (hk : KeyText T kv.1) (h : FlowReads T kv.2) {r : Str} (hr : FlowEnd r) (k) :
    ∃ r', Left r r' ∧ Reads T (.rule .inline_hash_element) (kv.1 ++ ':' :: (kv.2.format 0 none ++ r)) k
      [(.inline_hash_element, .entry kv.1 kv.2)] r' k := by
  obtain ⟨body, r', hb, hh, hl, hread⟩ := h r k hr
  refine ⟨r', hl, ?_⟩
  rw [hb]
  have h0 := reads_spaces (T := T) (n := 0) (r := ':' :: (' ' :: body ++ r)) (by simp) k
  have h1 := reads_spaces (T := T) (n := 1) hh k
  exact .rule rfl (.seq (reads_hash_key hk k) (.seq h0 (.seq (.lit ':' _ k) (.seq h1 hread)))) fun _ => rfl

theorem Spec.KeyText.spaces {s : Str} (h : KeyText T s) (r : Str) : ∀ c, (s ++ r).head? = some c → c ≠ ' ' ∧ c ≠ '\n' ∧ c ≠ '\r' := by
  intro c hc
  obtain ⟨d, t, he, hd⟩ := h.notSp r
  rw [he] at hc
  cases hc
  obtain ⟨h1, h2, h3, -⟩ := nameChar_black hd
  refine ⟨?_, h2, h3⟩
  rintro rfl; revert h1; decide

theorem reads_entries_tail {es : List (Str × Yaml)} (hk : ∀ k v, (k, v) ∈ es → KeyText T k) (h : ∀ k v, (k, v) ∈ es → FlowReads T v) {q r : Str} (k)
    (hq : Left (formatInlineEntries false es ++ ' ' :: '}' :: r) q) :
    ∃ n, n ≤ 1 ∧ Reads T (.star (.seqs [.rule .spaces, Rule.lit ',', .rule .spaces, .rule .inline_hash_element])) q k
      (es.map fun y => (.inline_hash_element, .entry y.1 y.2)) (indent n ++ '}' :: r) k := by
  induction es generalizing q with
  | nil =>
    obtain ⟨n, hn, rfl⟩ : ∃ n, n ≤ 1 ∧ q = indent n ++ '}' :: r := by
      rcases hq with rfl | hq
      · exact ⟨1, by omega, rfl⟩
      · simp only [formatInlineEntries, List.nil_append, List.cons.injEq, true_and] at hq
        exact ⟨0, by omega, hq.symm⟩
    exact ⟨n, hn, .starNil (.seqR (reads_spaces (by simp) k) (.seqL (.lit (by simp))))⟩
  | cons kv t ih =>
    obtain ⟨key, y⟩ := kv
    have he : formatInlineEntries false ((key, y) :: t) ++ ' ' :: '}' :: r =
        ',' :: ' ' :: (key ++ ':' :: (y.format 0 none ++ (formatInlineEntries false t ++ ' ' :: '}' :: r))) := by simp [formatInlineEntries]
    rw [he] at hq
    obtain rfl : q = ',' :: ' ' :: (key ++ ':' :: (y.format 0 none ++ (formatInlineEntries false t ++ ' ' :: '}' :: r))) := by
      rcases hq with hq | hq
      · exact hq
      · simp at hq
    obtain ⟨r', hl, hread⟩ := reads_inline_entry (kv := (key, y)) (hk key y (by simp)) (h key y (by simp)) (entries_flowEnd t r) k
    obtain ⟨n, hn, htail⟩ := ih (fun k z hz => hk k z (by simp [hz])) (fun k z hz => h k z (by simp [hz])) hl
    refine ⟨n, hn, ?_⟩
    have h0 := reads_spaces (T := T) (n := 0) (r := ',' :: ' ' :: (key ++ ':' :: (y.format 0 none ++ (formatInlineEntries false t ++ ' ' :: '}' :: r)))) (by simp) k
    have h1 := reads_spaces (T := T) (n := 1) ((hk key y (by simp)).spaces (':' :: (y.format 0 none ++ (formatInlineEntries false t ++ ' ' :: '}' :: r)))) k
    exact Reads.star (.seq h0 (.seq (.lit ',' _ k) (.seq h1 hread))) htail

theorem act_inline_hash (t : Str) (es : List (Str × Yaml)) :
    act .inline_hash t (oks (es.map fun y => (Rule.inline_hash_element, Val.entry y.1 y.2))) = .ok (.yaml (.inlineHash es)) := by
  show Consume.inlineHash _ = _
  rw [Consume.inlineHash, many_oks _ _ (fun y : Str × Yaml => Val.entry y.1 y.2) (fun _ => rfl)]
  rfl

/-- The text of a flow mapping. -/
theorem format_inline_hash (es : List (Str × Yaml)) (n p) : (Yaml.inlineHash es).format n p =
    ' ' :: '{' :: (formatInlineEntries true es ++ (if es.isEmpty then [] else [' ']) ++ ['}']) := by
  simp [Yaml.format]

theorem reads_inline_hash {es : List (Str × Yaml)} (hk : ∀ k v, (k, v) ∈ es → KeyText T k) (h : ∀ k v, (k, v) ∈ es → FlowReads T v) (r : Str) (k) :
    Reads T (.rule .inline_hash) ('{' :: (formatInlineEntries true es ++ (if es.isEmpty then [] else [' ']) ++ ['}']) ++ r) k
      [(.inline_hash, .yaml (.inlineHash es))] r k := by
  refine .rule (l := es.map fun y => (.inline_hash_element, .entry y.1 y.2)) rfl ?_ fun t => act_inline_hash t es
  cases es with
  | nil =>
    have h0 := reads_spaces (T := T) (n := 0) (r := '}' :: r) (by simp) k
    exact .seq (l₂ := []) (.lit '{' _ k) (.seq (l₁ := []) (l₂ := []) (.optNone (.seqR h0 (.seqL (.rule (.seqL
      (not_hash_key (by simpa [NotName] using not_nameChar (T := T) (c := '}') (by decide)) k)))))) (.seq h0 (.lit '}' r k)))
  | cons kv t =>
    obtain ⟨key, y⟩ := kv
    obtain ⟨r', hl, hread⟩ := reads_inline_entry (kv := (key, y)) (hk key y (by simp)) (h key y (by simp)) (entries_flowEnd t r) k
    obtain ⟨n, hn, htail⟩ := reads_entries_tail (fun k z hz => hk k z (by simp [hz])) (fun k z hz => h k z (by simp [hz])) k hl
    have he : '{' :: (formatInlineEntries true ((key, y) :: t) ++ (if ((key, y) :: t).isEmpty then [] else [' ']) ++ ['}']) ++ r =
        '{' :: ' ' :: (key ++ ':' :: (y.format 0 none ++ (formatInlineEntries false t ++ ' ' :: '}' :: r))) := by simp [formatInlineEntries]
    rw [he]
    have h1 := reads_spaces (T := T) (n := 1) ((hk key y (by simp)).spaces (':' :: (y.format 0 none ++ (formatInlineEntries false t ++ ' ' :: '}' :: r)))) k
    have h2 := reads_spaces (T := T) (n := n) (r := '}' :: r) (by simp) k
    have := Reads.seq (.lit '{' _ k) (.seq (.opt (.seq h1 (.seq hread htail))) (.seq h2 (.lit '}' r k)))
    simp only [List.append_nil, List.nil_append, List.cons_append] at this
    exact this

/-- Every flow value is read. -/
theorem Spec.Flow.reads {y : Yaml} (h : Flow T y) : FlowReads T y := by
  induction h with
  | @hash es keys values ih =>
    intro r k hr
    refine ⟨_, r, format_inline_hash es 0 none, by simp, .inl rfl, ?_⟩
    exact .rule rfl (.altR (not_anchor_head (by simp) k) (.altR (not_inline_array (by simp) k) (.altL (reads_inline_hash keys ih r k)))) fun _ => rfl
  | @array es h ih =>
    intro r k hr
    refine ⟨_, r, format_inline_array es 0 none, by simp, .inl rfl, ?_⟩
    exact .rule rfl (.altR (not_anchor_head (by simp) k) (.altL (reads_inline_array ih r k))) fun _ => rfl
  | plain h => exact flowReads_plain h
  | double h => exact flowReads_double h
  | single h => exact flowReads_single h
  | reference h => exact flowReads_anchor h

/-- Every value on one line is read. -/
theorem Spec.OneLine.reads {y : Yaml} (h : OneLine T y) {r : Str} (hr : LineEnd r ∨ ((∃ t, r = ' ' :: '#' :: t) ∧ Commentable y)) (n p) (k) :
    ∃ body r', y.format n p = ' ' :: body ∧ ValueAt T k body r r' y := by
  have hr0 : After r := by
    rcases hr with hr | ⟨hr, -⟩
    · exact .inl hr
    · exact .inr hr
  cases h with
  | @hash es h =>
    refine ⟨_, r, format_inline_hash es n p, noColl_head (by decide), noAlias_head (by simp), .inl rfl, ?_⟩
    refine reads_inline_value (noColl_head (by decide)) (by simp) (by simp) (by simp) ?_
    cases h with
    | hash keys values =>
      exact .rule rfl (.altR (not_anchor_head (by simp) k) (.altR (not_inline_array (by simp) k)
        (.altL (reads_inline_hash keys (fun k v hm => (values k v hm).reads) r k)))) fun _ => rfl
  | @array es h =>
    have hc : NoColl T ('[' :: (formatInlineElements true es ++ (if es.isEmpty then [] else [' ']) ++ [']']) ++ r) := noColl_head (by decide)
    refine ⟨_, r, format_inline_array es n p, hc, noAlias_head (by simp), .inl rfl, ?_⟩
    cases h with
    | array h =>
      have ha : Reads T (.rule .array) _ k [(.array, .yaml (.inlineArray es))] r k :=
        .rule rfl (.altL (reads_inline_array (fun v hm => (h v hm).reads) r k)) fun _ => rfl
      exact .rule rfl (.altR (not_hash_here hc k) (.altL ha)) fun _ => rfl
  | plain h =>
    obtain ⟨r', hv⟩ := valueAt_plain h hr k
    exact ⟨_, r', rfl, hv⟩
  | double h =>
    obtain ⟨r', hv⟩ := valueAt_double h hr0 k (T := T)
    exact ⟨_, r', rfl, hv⟩
  | single h =>
    obtain ⟨r', hv⟩ := valueAt_single h hr0 k (T := T)
    exact ⟨_, r', rfl, hv⟩
  | reference h => exact ⟨_, r, rfl, valueAt_anchor h hr0 k⟩

end YamlSubset
