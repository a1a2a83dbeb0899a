import Verif.Lemmas.BreaksSingle

/-! # The grammar does not see how lines are broken -/

namespace YamlSubset

open Peg Spec

variable {T : CharTables} {k : List Str}

/-- Outcomes of the same kind, with related values. -/
def SameOut {α β : Type} (R : α → β → Prop) : Out α → Out β → Prop
  | .ok a, .ok b => R a b
  | .err, .err => True
  | .panic, .panic => True
  | .unmatched, .unmatched => True
  | .oof, .oof => True
  | _, _ => False

/-- Related values. -/
inductive VRel : Val → Val → Prop
  | same (v : Val) : VRel v v
  | yaml {y y'} (h : Alike y y') : VRel (.yaml y) (.yaml y')
  | entry {k y y'} (h : Alike y y') : VRel (.entry k y) (.entry k y')
  | aliased {a y y'} (h : Alike y y') : VRel (.aliased ⟨a, y⟩) (.aliased ⟨a, y'⟩)
  | hashElement {k a y y'} (h : Alike y y') : VRel (.hashElement ⟨k, ⟨a, y⟩⟩) (.hashElement ⟨k, ⟨a, y'⟩⟩)
  | hashData {ds ds'} (h : AlikeItems ds ds') : VRel (.hashData ds) (.hashData ds')
  | arrayDatum {a y y'} (h : Alike y y') : VRel (.arrayDatum (.element ⟨a, y⟩)) (.arrayDatum (.element ⟨a, y'⟩))
  | arrayData {ds ds'} (h : AlikeElements ds ds') : VRel (.arrayData ds) (.arrayData ds')
  | doc {d d'} (h : AlikeDocuments d d') : VRel (.doc d) (.doc d')

/-- The rules inside quoted scalars. -/
def Rule.quotedPart : Rule → Bool
  | .escaped_double_quote_char_value | .escaped_double_quote_char | .double_quote_text
  | .double_quote_without_escape | .double_quote_content
  | .single_quote | .single_quote_char | .blank_lines | .removable_newline | .single_quote_text
  | .escaped_single_quote_char | .single_quote_content | .EOI => true
  | _ => false

mutual
/-- Related parse trees. -/
inductive TreeRel (T : CharTables) : Tree Rule → Tree Rule → Prop
  | node {r : Rule} {s rest : Str} {k k' : List Str} {ts ts' : List (Tree Rule)} (hr : r.kind = .normal)
      (hq : r.quotedPart = false) (hy : Yes (yamlGrammar T) (r.body T) s k ts rest k') (h : TreesRel T ts ts') :
      TreeRel T (.node r (consumed s rest) ts) (.node r (unixBreaks (consumed s rest)) ts')
  | leaf {r : Rule} {s rest : Str} {k k' : List Str} {ts : List (Tree Rule)} (hr : r.kind = .atomic)
      (hq : r.quotedPart = false) (hy : Yes (yamlGrammar T) (r.body T) s k ts rest k') :
      TreeRel T (.node r (consumed s rest) []) (.node r (unixBreaks (consumed s rest)) [])
  | eoi : TreeRel T (.node .EOI [] []) (.node .EOI [] [])
  | quoted {t t' : Tree Rule} (hr : t.root = t'.root) (hq : t.root = .double_quoted_string ∨ t.root = .single_quoted_string)
      (h : SameOut VRel (sem t) (sem t')) : TreeRel T t t'
/-- Related lists of parse trees. -/
inductive TreesRel (T : CharTables) : List (Tree Rule) → List (Tree Rule) → Prop
  | nil : TreesRel T [] []
  | cons {t t' : Tree Rule} {ts ts' : List (Tree Rule)} (h : TreeRel T t t') (hs : TreesRel T ts ts') : TreesRel T (t :: ts) (t' :: ts')
end

theorem TreesRel.append {ts ts' us us' : List (Tree Rule)} (h : TreesRel T ts ts') (h' : TreesRel T us us') :
    TreesRel T (ts ++ us) (ts' ++ us') := by
  induction ts generalizing ts' with
  | nil => cases h; exact h'
  | cons t ts ih =>
    cases h with
    | cons h hs => exact .cons h (ih hs)

/-! ## quoted scalars -/

theorem sp_not_break : isSpaceSeparator '\n' = false ∧ isSpaceSeparator '\r' = false := by decide

theorem yes_sp (s : Str) : Yes (yamlGrammar T) (.star Rule.SP) s k [] (s.dropWhile isSpaceSeparator) k := by
  apply yes_dropWhile
  · intro c t h; exact yes_cls.2 ⟨c, rfl, h, rfl, rfl⟩
  · intro s h
    rw [Rule.SP, no_cls]
    rintro c r rfl
    exact h c rfl

/-- A double quoted scalar from its content. -/
theorem dqs_of {y z : Str} {ts : List (Tree Rule)}
    (h : Yes (yamlGrammar T) (.star (.rule .double_quote_without_escape)) y (['"'] :: k) ts ('"' :: z) (['"'] :: k)) :
    Yes (yamlGrammar T) (.rule .double_quoted_string) ('"' :: y) k
      [.node .double_quoted_string (consumed ('"' :: y) (z.dropWhile isSpaceSeparator)) [.node .double_quote_content (consumed y ('"' :: z)) ts]]
      (z.dropWhile isSpaceSeparator) k := by
  refine yes_rule.2 ⟨_, yes_seq.2 ⟨[], y, ['"'] :: k, _, yes_push.2 ⟨k, yes_str.2 ⟨rfl, rfl, rfl⟩, ?_⟩,
    yes_seq.2 ⟨_, '"' :: z, ['"'] :: k, [], yes_rule.2 ⟨ts, h, rfl⟩, yes_seq.2 ⟨[], z, k, [], yes_pop.2 ⟨['"'], rfl, rfl, rfl⟩, yes_sp z, rfl⟩, rfl⟩, rfl⟩, rfl⟩
  rw [show '"' :: y = ['"'] ++ y from rfl, Peg.consumed_append]

theorem sem_dqs {text text' : Str} {ts : List (Tree Rule)} {ps : List DQPart}
    (h : many .double_quote_without_escape Val.asDqPart (semKids ts) = .ok ps) :
    sem (.node .double_quoted_string text [.node .double_quote_content text' ts]) = .ok (.yaml (.doubleQuotedString ps)) := by
  simp [sem, semKids, act, Consume.doubleQuotedString, Consume.doubleQuoteContent, h, Out.bind, Val.asDqParts]

/-- Input that is not a double quoted scalar. -/
theorem dqs_no {x : Str} (h : ∀ y z, x = '"' :: y → dqEnd y ≠ '"' :: z) : No (yamlGrammar T) (.rule .double_quoted_string) x k := by
  refine no_rule.2 ?_
  show No _ (.seq (.push (.str ['"'])) (.seq (.rule Rule.double_quote_content) (.seq .pop _))) _ _
  by_cases hx : ∃ y, x = '"' :: y
  · obtain ⟨y, rfl⟩ := hx
    obtain ⟨ts, ps, t, hy, -, -, -⟩ := dq_content (T := T) (k := ['"'] :: k) y
    refine no_seq.2 (.inr ⟨[], y, ['"'] :: k, yes_push.2 ⟨k, yes_str.2 ⟨rfl, rfl, rfl⟩, ?_⟩,
      no_seq.2 (.inr ⟨_, dqEnd y, ['"'] :: k, yes_rule.2 ⟨ts, hy, rfl⟩, no_seq.2 (.inl (no_pop.2 ⟨['"'], k, rfl, ?_⟩))⟩)⟩)
    · rw [show '"' :: y = ['"'] ++ y from rfl, Peg.consumed_append]
    · rintro ⟨r, hr⟩
      exact h y r rfl hr
  · refine no_seq.2 (.inl (no_push.2 (no_lit.2 ?_)))
    intro h'
    cases x with
    | nil => cases h'
    | cons c y => simp at h'; exact hx ⟨y, by rw [h']⟩

/-- Double quoted scalars and line breaks. -/
theorem dqs_sim {x : Str} (hx : NoBackslashBreak x) :
    (∀ ts r k', Yes (yamlGrammar T) (.rule .double_quoted_string) x k ts r k' →
      ∃ ts', Yes (yamlGrammar T) (.rule .double_quoted_string) (unixBreaks x) k ts' (unixBreaks r) k' ∧ TreesRel T ts ts' ∧ CleanCut x r ∧ k' = k) ∧
    (No (yamlGrammar T) (.rule .double_quoted_string) x k → No (yamlGrammar T) (.rule .double_quoted_string) (unixBreaks x) k) := by
  by_cases h : ∃ y z, x = '"' :: y ∧ dqEnd y = '"' :: z
  · obtain ⟨y, z, rfl, hz⟩ := h
    have hy := nbb_tail hx
    obtain ⟨ts₀, ps, t, h1, h2, h3, h4⟩ := dq_content (T := T) (k := ['"'] :: k) y
    rw [hz] at h1
    have hyes := dqs_of h1
    refine ⟨?_, fun hno => (hyes.not_no hno).elim⟩
    intro ts r k' h'
    obtain ⟨rfl, rfl, rfl⟩ := h'.unique hyes
    have hu : dqEnd (unixBreaks y) = '"' :: unixBreaks z := by rw [dqEnd_ub hy, hz, ub_cons (by decide)]
    obtain ⟨ts₁, ps', t', h1', h2', h3', h4'⟩ := dq_content (T := T) (k := ['"'] :: k') (unixBreaks y)
    rw [hu] at h1'
    have hyes' := dqs_of h1'
    have hsp := ub_dropWhile sp_not_break z
    rw [hsp.1] at hyes'
    rw [ub_cons (by decide)]
    have hcut : CleanCut y ('"' :: z) := hz ▸ dqEnd_cut y
    refine ⟨_, hyes', .cons (.quoted rfl (.inl rfl) ?_) .nil, ?_, rfl⟩
    · rw [sem_dqs h2, sem_dqs h2']
      by_cases hl : LineText t
      · obtain ⟨ts₂, e1, e2⟩ := dq_two (T := T) (k := ['"'] :: k') hl (z := z) (by rw [← hz, ← h3]) (unixBreaks z)
        rw [← hz, ← h3] at e1
        rw [hz] at e1
        obtain ⟨rfl, -, -⟩ := e1.unique h1
        have : t ++ '"' :: unixBreaks z = unixBreaks y := by
          rw [← ub_cons (by decide), ← ub_line_append hl, ← hz, ← h3]
        rw [this] at e2
        obtain ⟨rfl, -, -⟩ := e2.unique h1'
        rw [h2] at h2'
        simp only [Out.ok.injEq] at h2'
        subst h2'
        exact .same _
      · refine .yaml (.double (h4' (nbb_ub hy) ?_))
        have hut : unixBreaks y = unixBreaks t ++ unixBreaks (dqEnd y) := by
          rw [← ub_append (fun h => dqEnd_head y h.2), ← h3]
        have : t' = unixBreaks t := by
          rw [dqEnd_ub hy] at h3'
          exact (List.append_cancel_right (hut.symm.trans h3')).symm
        rw [this]
        exact Classical.not_not.1 fun hn => hl (ub_newline.1 hn)
    · exact (cleanCut_line (t := ['"']) (by simp [LineText]) y).trans (hcut.trans ((cleanCut_line (t := ['"']) (by simp [LineText]) z).trans hsp.2))
  · have hno : ∀ y z, x = '"' :: y → dqEnd y ≠ '"' :: z := fun y z h1 h2 => h ⟨y, z, h1, h2⟩
    refine ⟨fun ts r k' h' => (h'.not_no (dqs_no hno)).elim, fun _ => dqs_no ?_⟩
    intro y z h1 h2
    obtain ⟨y', rfl⟩ := ub_prefix (t := ['"']) (by simp [LineText]) h1
    simp only [List.cons_append, List.nil_append] at h1 hx hno
    rw [ub_cons (by decide), List.cons.injEq] at h1
    rw [← h1.2, dqEnd_ub (nbb_tail hx)] at h2
    obtain ⟨z', hz'⟩ := ub_prefix (t := ['"']) (by simp [LineText]) h2
    exact hno y' z' rfl hz'

/-- A single quoted scalar from its content. -/
theorem sqs_of {y z : Str} {ts : List (Tree Rule)}
    (h : Yes (yamlGrammar T) (.star (.rule .escaped_single_quote_char)) y (['\''] :: k) ts ('\'' :: z) (['\''] :: k)) :
    Yes (yamlGrammar T) (.rule .single_quoted_string) ('\'' :: y) k
      [.node .single_quoted_string (consumed ('\'' :: y) (z.dropWhile isSpaceSeparator)) [.node .single_quote_content (consumed y ('\'' :: z)) ts]]
      (z.dropWhile isSpaceSeparator) k := by
  refine yes_rule.2 ⟨_, yes_seq.2 ⟨[], y, ['\''] :: k, _, yes_push.2 ⟨k, yes_str.2 ⟨rfl, rfl, rfl⟩, ?_⟩,
    yes_seq.2 ⟨_, '\'' :: z, ['\''] :: k, [], yes_rule.2 ⟨ts, h, rfl⟩, yes_seq.2 ⟨[], z, k, [], yes_pop.2 ⟨['\''], rfl, rfl, rfl⟩, yes_sp z, rfl⟩, rfl⟩, rfl⟩, rfl⟩
  rw [show '\'' :: y = ['\''] ++ y from rfl, Peg.consumed_append]

theorem sem_sqs {text text' : Str} {ts : List (Tree Rule)} {ps : List SQPart}
    (h : many .escaped_single_quote_char Val.asSqPart (semKids ts) = .ok ps) :
    sem (.node .single_quoted_string text [.node .single_quote_content text' ts]) = .ok (.yaml (.singleQuotedString ps)) := by
  simp [sem, semKids, act, Consume.singleQuotedString, Consume.singleQuoteContent, h, Out.bind, Val.asSqParts]

/-- Input that is not a single quoted scalar. -/
theorem sqs_no {x : Str} (h : ∀ y z, x = '\'' :: y → sqEnd y ≠ '\'' :: z) : No (yamlGrammar T) (.rule .single_quoted_string) x k := by
  refine no_rule.2 ?_
  show No _ (.seq (.push (.str ['\''])) (.seq (.rule Rule.single_quote_content) (.seq .pop _))) _ _
  by_cases hx : ∃ y, x = '\'' :: y
  · obtain ⟨y, rfl⟩ := hx
    obtain ⟨ts, ps, t, hy, -, -, -⟩ := sq_content (T := T) (k := ['\''] :: k) y
    refine no_seq.2 (.inr ⟨[], y, ['\''] :: k, yes_push.2 ⟨k, yes_str.2 ⟨rfl, rfl, rfl⟩, ?_⟩,
      no_seq.2 (.inr ⟨_, sqEnd y, ['\''] :: k, yes_rule.2 ⟨ts, hy, rfl⟩, no_seq.2 (.inl (no_pop.2 ⟨['\''], k, rfl, ?_⟩))⟩)⟩)
    · rw [show '\'' :: y = ['\''] ++ y from rfl, Peg.consumed_append]
    · rintro ⟨r, hr⟩
      exact h y r rfl hr
  · refine no_seq.2 (.inl (no_push.2 (no_lit.2 ?_)))
    intro h'
    cases x with
    | nil => cases h'
    | cons c y => simp at h'; exact hx ⟨y, by rw [h']⟩

/-- The closing quote is not followed by a quote. -/
theorem sqEnd_closed {y z : Str} (h : sqEnd y = '\'' :: z) : z.head? ≠ some '\'' := by
  generalize hn : y.length = n
  induction n using Nat.strongRecOn generalizing y with
  | ind n ih =>
    rcases sq_cases y with ⟨h', -, h''⟩ | ⟨u, rfl, h'⟩ | ⟨c, t, rfl, -, h'⟩
    · rw [h] at h'
      rcases h'' with rfl | ⟨t, rfl, ht⟩
      · cases h'
      · cases h'; exact ht
    · exact ih u.length (by simp at hn; omega) (h' ▸ h) rfl
    · exact ih t.length (by simp at hn; omega) (h' ▸ h) rfl

/-- Single quoted scalars and line breaks. -/
theorem sqs_sim {x : Str} :
    (∀ ts r k', Yes (yamlGrammar T) (.rule .single_quoted_string) x k ts r k' →
      ∃ ts', Yes (yamlGrammar T) (.rule .single_quoted_string) (unixBreaks x) k ts' (unixBreaks r) k' ∧ TreesRel T ts ts' ∧ CleanCut x r ∧ k' = k) ∧
    (No (yamlGrammar T) (.rule .single_quoted_string) x k → No (yamlGrammar T) (.rule .single_quoted_string) (unixBreaks x) k) := by
  by_cases h : ∃ y z, x = '\'' :: y ∧ sqEnd y = '\'' :: z
  · obtain ⟨y, z, rfl, hz⟩ := h
    obtain ⟨ts₀, ps, t, h1, h2, h3, h4⟩ := sq_content (T := T) (k := ['\''] :: k) y
    rw [hz] at h1
    have hyes := sqs_of h1
    refine ⟨?_, fun hno => (hyes.not_no hno).elim⟩
    intro ts r k' h'
    obtain ⟨rfl, rfl, rfl⟩ := h'.unique hyes
    have hu : sqEnd (unixBreaks y) = '\'' :: unixBreaks z := by rw [sqEnd_ub, hz, ub_cons (by decide)]
    obtain ⟨ts₁, ps', t', h1', h2', h3', h4'⟩ := sq_content (T := T) (k := ['\''] :: k') (unixBreaks y)
    rw [hu] at h1'
    have hyes' := sqs_of h1'
    have hsp := ub_dropWhile sp_not_break z
    rw [hsp.1] at hyes'
    rw [ub_cons (by decide)]
    have hcut : CleanCut y ('\'' :: z) := hz ▸ sqEnd_cut y
    refine ⟨_, hyes', .cons (.quoted rfl (.inr rfl) ?_) .nil, ?_, rfl⟩
    · rw [sem_sqs h2, sem_sqs h2']
      by_cases hl : LineText t
      · obtain ⟨ts₂, e1, e2⟩ := sq_two (T := T) (k := ['\''] :: k') hl (z := z) (by rw [← hz, ← h3]) (sqEnd_closed hu)
        rw [← hz, ← h3] at e1
        rw [hz] at e1
        obtain ⟨rfl, -, -⟩ := e1.unique h1
        have : t ++ '\'' :: unixBreaks z = unixBreaks y := by
          rw [← ub_cons (by decide), ← ub_line_append hl, ← hz, ← h3]
        rw [this] at e2
        obtain ⟨rfl, -, -⟩ := e2.unique h1'
        rw [h2] at h2'
        simp only [Out.ok.injEq] at h2'
        subst h2'
        exact .same _
      · refine .yaml (.single (h4' ?_))
        have hut : unixBreaks y = unixBreaks t ++ unixBreaks (sqEnd y) := by
          rw [← ub_append (fun h => sqEnd_head y h.2), ← h3]
        have : t' = unixBreaks t := by
          rw [sqEnd_ub] at h3'
          exact (List.append_cancel_right (hut.symm.trans h3')).symm
        rw [this]
        exact Classical.not_not.1 fun hn => hl (ub_newline.1 hn)
    · exact (cleanCut_line (t := ['\'']) (by simp [LineText]) y).trans (hcut.trans ((cleanCut_line (t := ['\'']) (by simp [LineText]) z).trans hsp.2))
  · have hno : ∀ y z, x = '\'' :: y → sqEnd y ≠ '\'' :: z := fun y z h1 h2 => h ⟨y, z, h1, h2⟩
    refine ⟨fun ts r k' h' => (h'.not_no (sqs_no hno)).elim, fun _ => sqs_no ?_⟩
    intro y z h1 h2
    obtain ⟨y', rfl⟩ := ub_prefix (t := ['\'']) (by simp [LineText]) h1
    simp only [List.cons_append, List.nil_append] at h1 hno
    rw [ub_cons (by decide), List.cons.injEq] at h1
    rw [← h1.2, sqEnd_ub] at h2
    obtain ⟨z', hz'⟩ := ub_prefix (t := ['\'']) (by simp [LineText]) h2
    exact hno y' z' rfl hz'

end YamlSubset
