import Verif.Lemmas.BreaksQuoted

/-! # What the rules for single quoted scalars match -/

namespace YamlSubset

open Peg Spec

variable {T : CharTables} {k : List Str}

/-- Where the content of a single quoted scalar ends. -/
def sqEnd : Str → Str
  | [] => []
  | c :: t =>
    if c = '\'' then
      match t with
      | [] => c :: t
      | d :: u => if d = '\'' then sqEnd u else c :: t
    else sqEnd t

theorem sqEnd_esc (u : Str) : sqEnd ('\'' :: '\'' :: u) = sqEnd u := by simp [sqEnd]
theorem sqEnd_stop {t : Str} (h : t.head? ≠ some '\'') : sqEnd ('\'' :: t) = '\'' :: t := by
  cases t with
  | nil => simp [sqEnd]
  | cons d u => simp at h; simp [sqEnd, h]
theorem sqEnd_cons {c : Char} (h : c ≠ '\'') (t : Str) : sqEnd (c :: t) = sqEnd t := by
  rw [sqEnd.eq_def]; simp [h]

/-- The ways to take the content of a single quoted scalar apart. -/
theorem sq_cases (x : Str) : (sqEnd x = x ∧ x.head? ≠ some '\n' ∧ (x = [] ∨ ∃ t, x = '\'' :: t ∧ t.head? ≠ some '\'')) ∨
    (∃ u, x = '\'' :: '\'' :: u ∧ sqEnd x = sqEnd u) ∨
    ∃ c t, x = c :: t ∧ c ≠ '\'' ∧ sqEnd x = sqEnd t := by
  cases x with
  | nil => exact .inl ⟨rfl, by simp, .inl rfl⟩
  | cons c t =>
    by_cases h : c = '\''
    · subst h
      by_cases ht : t.head? = some '\''
      · cases t with
        | nil => cases ht
        | cons d u => simp at ht; subst ht; exact .inr (.inl ⟨u, rfl, sqEnd_esc u⟩)
      · exact .inl ⟨sqEnd_stop ht, by simp, .inr ⟨t, rfl, ht⟩⟩
    · exact .inr (.inr ⟨c, t, rfl, h, sqEnd_cons h t⟩)

theorem sqEnd_suffix (x : Str) : ∃ t, x = t ++ sqEnd x := by
  generalize hn : x.length = n
  induction n using Nat.strongRecOn generalizing x with
  | ind n ih =>
    rcases sq_cases x with ⟨h, -⟩ | ⟨u, rfl, h⟩ | ⟨c, t, rfl, -, h⟩
    · exact ⟨[], by rw [h]; rfl⟩
    · obtain ⟨t, ht⟩ := ih u.length (by simp at hn; omega) u rfl
      exact ⟨'\'' :: '\'' :: t, by rw [h, List.cons_append, List.cons_append, ← ht]⟩
    · obtain ⟨t', ht⟩ := ih t.length (by simp at hn; omega) t rfl
      exact ⟨c :: t', by rw [h, List.cons_append, ← ht]⟩

theorem sqEnd_head (x : Str) : (sqEnd x).head? ≠ some '\n' := by
  generalize hn : x.length = n
  induction n using Nat.strongRecOn generalizing x with
  | ind n ih =>
    rcases sq_cases x with ⟨h, h', -⟩ | ⟨u, rfl, h⟩ | ⟨c, t, rfl, -, h⟩
    · rw [h]; exact h'
    · rw [h]; exact ih u.length (by simp at hn; omega) u rfl
    · rw [h]; exact ih t.length (by simp at hn; omega) t rfl

theorem sqEnd_cut (x : Str) : CleanCut x (sqEnd x) := cleanCut_head (sqEnd_suffix x) (sqEnd_head x)

theorem sqEnd_dropWhile {p : Char → Bool} (hp : ∀ c, p c = true → c ≠ '\'') (t : Str) : sqEnd (t.dropWhile p) = sqEnd t := by
  induction t with
  | nil => rfl
  | cons c t ih =>
    cases h : p c with
    | true => simp only [List.dropWhile_cons, h, if_true]; rw [ih, sqEnd_cons (hp c h)]
    | false => simp [h]

theorem ub_head_quote {t : Str} {c : Char} (hc : c ≠ '\n' ∧ c ≠ '\r') : (unixBreaks t).head? = some c ↔ t.head? = some c := by
  rcases ub_cases t with ⟨rfl, -⟩ | ⟨d, u, rfl, -, -, hu⟩ | ⟨b, u, rfl, hb, hu⟩
  · simp [unixBreaks]
  · rw [hu]; simp
  · rw [hu]
    rcases hb with rfl | rfl | ⟨rfl, -⟩ <;> simp [Ne.symm hc.1, Ne.symm hc.2]

/-- The end of the content does not depend on how lines are broken. -/
theorem sqEnd_ub (x : Str) : sqEnd (unixBreaks x) = unixBreaks (sqEnd x) := by
  generalize hn : x.length = n
  induction n using Nat.strongRecOn generalizing x with
  | ind n ih =>
    rcases sq_cases x with ⟨h, h', h''⟩ | ⟨u, rfl, h⟩ | ⟨c, t, rfl, h1, h⟩
    · rw [h]
      rcases h'' with rfl | ⟨t, rfl, ht⟩
      · rfl
      · rw [ub_cons (by decide), sqEnd_stop]
        intro h; exact ht ((ub_head_quote (by decide)).1 h)
    · rw [h, ub_cons (by decide), ub_cons (by decide), sqEnd_esc]
      exact ih u.length (by simp at hn; omega) _ rfl
    · rw [h]
      rcases ub_cases (c :: t) with ⟨h', -⟩ | ⟨d, u, h', -, -, hu⟩ | ⟨b, u, hb, hb', hu⟩
      · cases h'
      · cases h'
        rw [hu, sqEnd_cons h1]
        exact ih t.length (by simp at hn; omega) _ rfl
      · rw [hu, sqEnd_cons (by decide)]
        have hlt : u.length < n := by
          rw [← hn, hb]
          rcases hb' with rfl | rfl | ⟨rfl, -⟩ <;> simp
          omega
        rw [ih u.length hlt _ rfl]
        congr 1
        rcases hb' with rfl | rfl | ⟨rfl, -⟩
        · simp only [List.cons_append, List.nil_append, List.cons.injEq] at hb
          rw [hb.2]
        · simp only [List.cons_append, List.nil_append, List.cons.injEq] at hb
          rw [hb.2, sqEnd_cons (by decide)]
        · simp only [List.cons_append, List.nil_append, List.cons.injEq] at hb
          rw [hb.2]

/-! ## the parts of a single quoted scalar -/

/-- Characters of texts in single quotes. -/
def sqChar (c : Char) : Bool := c != '\'' && c != '\n'

theorem sqChar_iff {c : Char} : sqChar c = true ↔ c ≠ '\'' ∧ c ≠ '\n' := by simp [sqChar]

theorem yes_sqChar {c : Char} {t : Str} (h : sqChar c = true) :
    Yes (yamlGrammar T) (.seq (.not (.alts [Rule.lit '\'', Rule.lit '\n'])) Rule.ANY) (c :: t) k [] t k := by
  refine yes_not_any.2 ⟨?_, ⟨c, rfl⟩, rfl, rfl⟩
  have := sqChar_iff.1 h
  simp only [Expr.alts, no_alt, no_lit, List.head?_cons, ne_eq, Option.some.injEq]
  exact this

theorem no_sqChar {s : Str} (h : ∀ c, s.head? = some c → sqChar c = false) :
    No (yamlGrammar T) (.seq (.not (.alts [Rule.lit '\'', Rule.lit '\n'])) Rule.ANY) s k := by
  cases s with
  | nil =>
    refine no_seq.2 (.inr ⟨[], [], k, yes_not.2 ⟨?_, rfl, rfl, rfl⟩, ?_⟩)
    · simp only [Expr.alts, no_alt, no_lit]; simp
    · rw [Rule.ANY, no_cls]; simp
  | cons c t =>
    refine no_seq.2 (.inl (no_not.2 ⟨[], t, k, ?_⟩))
    have := h c rfl
    simp only [sqChar, Bool.and_eq_false_iff, bne_eq_false_iff_eq] at this
    simp only [Expr.alts, yes_alt, yes_str, no_lit, List.cons_append, List.nil_append, List.cons.injEq, and_true, true_and,
      List.head?_cons, ne_eq, Option.some.injEq]
    rcases this with rfl | rfl <;> decide

/-- A doubled quote. -/
theorem yes_sqEsc (u : Str) :
    Yes (yamlGrammar T) (.rule .escaped_single_quote_char) ('\'' :: '\'' :: u) k
      [.node .escaped_single_quote_char ['\'', '\''] [.node .single_quote ['\''] []]] u k :=
  yes_node rfl (yes_alt.2 (.inl (yes_silent rfl (yes_seq.2 ⟨[], '\'' :: u, k, _, yes_str.2 ⟨rfl, rfl, rfl⟩,
    yes_node rfl (yes_str.2 ⟨rfl, rfl, rfl⟩) (t := ['\'']) rfl, rfl⟩)))) rfl

theorem no_sqEsc {s : Str} (h : ∀ u, s ≠ '\'' :: '\'' :: u) : No (yamlGrammar T) (.rule .single_quote_char) s k := by
  apply no_of
  show No _ (.seq (.str ['\'']) (.rule Rule.single_quote)) _ _
  cases s with
  | nil => exact no_seq.2 (.inl (no_lit.2 (by simp)))
  | cons c t =>
    by_cases hc : c = '\''
    · subst hc
      refine no_seq.2 (.inr ⟨[], t, k, yes_str.2 ⟨rfl, rfl, rfl⟩, no_of (no_lit.2 ?_)⟩)
      intro ht
      cases t with
      | nil => cases ht
      | cons d t => simp at ht; exact h t (by rw [ht])
    · exact no_seq.2 (.inl (no_lit.2 (by simp [hc])))

theorem yes_sqBlank (u : Str) : Yes (yamlGrammar T) (.rule .escaped_single_quote_char) ('\n' :: '\n' :: u) k
    [.node .escaped_single_quote_char ('\n' :: '\n' :: u.takeWhile (· == '\n'))
      [.node .blank_lines ('\n' :: '\n' :: u.takeWhile (· == '\n')) []]] (u.dropWhile (· == '\n')) k :=
  yes_node rfl (yes_alt.2 (.inr ⟨no_sqEsc (by simp), yes_alt.2 (.inl (yes_blank u))⟩)) (by simp)

theorem yes_sqBreak {u : Str} (h : u.head? ≠ some '\n') : Yes (yamlGrammar T) (.rule .escaped_single_quote_char) ('\n' :: u) k
    [.node .escaped_single_quote_char ['\n'] [.node .removable_newline ['\n'] []]] u k :=
  yes_node rfl (yes_alt.2 (.inr ⟨no_sqEsc (by simp), yes_alt.2 (.inr ⟨no_blank (by rintro v hv; simp at hv; simp [hv] at h),
    yes_alt.2 (.inl (yes_node rfl (yes_str.2 ⟨rfl, rfl, rfl⟩) rfl))⟩)⟩)) rfl

/-- A text. -/
theorem yes_sqText {c : Char} (h : sqChar c = true) (u : Str) : Yes (yamlGrammar T) (.rule .escaped_single_quote_char) (c :: u) k
    [.node .escaped_single_quote_char (c :: u.takeWhile sqChar) [.node .single_quote_text (c :: u.takeWhile sqChar) []]]
    (u.dropWhile sqChar) k := by
  have hc := sqChar_iff.1 h
  refine yes_node rfl (yes_alt.2 (.inr ⟨no_sqEsc (by simp [hc.1]), yes_alt.2 (.inr ⟨no_blank (by rintro v hv; simp [hc.2] at hv),
    yes_alt.2 (.inr ⟨no_of (no_lit.2 (by simp [hc.2])), yes_node rfl ?_ (by simp)⟩)⟩)⟩)) (by simp)
  exact yes_seq.2 ⟨[], u, k, [], yes_sqChar h, yes_dropWhile (fun c t h => yes_sqChar h) (fun s h => no_sqChar h) u, rfl⟩

/-- No part. -/
theorem no_sqPart {x : Str} (h : x = [] ∨ ∃ t, x = '\'' :: t ∧ t.head? ≠ some '\'') :
    No (yamlGrammar T) (.rule .escaped_single_quote_char) x k := by
  have hn : x.head? ≠ some '\n' := by rcases h with rfl | ⟨t, rfl, -⟩ <;> simp
  refine no_of (no_alt.2 ⟨no_sqEsc ?_, no_alt.2 ⟨no_blank ?_, no_alt.2 ⟨no_of (no_lit.2 hn), no_of (no_seq.2 (.inl (no_sqChar ?_)))⟩⟩⟩)
  · rcases h with rfl | ⟨t, rfl, ht⟩
    · simp
    · rintro u hu; simp at hu; simp [hu] at ht
  · rintro u rfl; simp at hn
  · rcases h with rfl | ⟨t, rfl, -⟩ <;> simp [sqChar]

/-- Consuming one more part. -/
theorem many_sq {text : Str} {us ts : List (Tree Rule)} {p : SQPart} {ps : List SQPart}
    (h : sem (.node .escaped_single_quote_char text us) = .ok (.sqPart p))
    (h' : many .escaped_single_quote_char Val.asSqPart (semKids ts) = .ok ps) :
    many .escaped_single_quote_char Val.asSqPart (semKids ([.node .escaped_single_quote_char text us] ++ ts)) = .ok (p :: ps) := by
  simp only [List.cons_append, List.nil_append, semKids, many, if_true, h, Out.bind, Val.asSqPart, h']

/-- The content of a single quoted scalar: where it ends, and its parts. -/
theorem sq_content (x : Str) : ∃ ts ps t, Yes (yamlGrammar T) (.star (.rule .escaped_single_quote_char)) x k ts (sqEnd x) k ∧
    many .escaped_single_quote_char Val.asSqPart (semKids ts) = .ok ps ∧ x = t ++ sqEnd x ∧
    ('\n' ∈ t → ∃ p ∈ ps, SQBreak p) := by
  generalize hn : x.length = n
  induction n using Nat.strongRecOn generalizing x with
  | ind n ih =>
    rcases sq_cases x with ⟨h, h', h''⟩ | ⟨u, rfl, h⟩ | ⟨c, t, rfl, h1, h⟩
    · exact ⟨[], [], [], yes_star.2 (.inl ⟨no_sqPart h'', rfl, h, rfl⟩), rfl, h.symm, by simp⟩
    · obtain ⟨ts, ps, t, hy, hs, ht, hb⟩ := ih u.length (by simp at hn; omega) u rfl
      refine ⟨_, _, '\'' :: '\'' :: t, yes_star.2 (.inr ⟨_, u, k, ts, yes_sqEsc u, h ▸ hy, rfl⟩), many_sq (p := .escapedChar .singleQuote) rfl hs, ?_, ?_⟩
      · rw [h, List.cons_append, List.cons_append, ← ht]
      · intro hm
        simp only [List.mem_cons] at hm
        rcases hm with hm | hm | hm
        · cases hm
        · cases hm
        · obtain ⟨p, hp, hp'⟩ := hb hm
          exact ⟨p, by simp [hp], hp'⟩
    · by_cases hc : c = '\n'
      · subst hc
        by_cases hu : t.head? = some '\n'
        · cases t with
          | nil => cases hu
          | cons d u =>
            simp only [List.head?_cons, Option.some.injEq] at hu
            subst hu
            obtain ⟨ts, ps, t, hy, hs, ht, hb⟩ := ih (u.dropWhile (· == '\n')).length
              (by have := (List.dropWhile_sublist (l := u) (· == '\n')).length_le; simp at hn; omega) _ rfl
            have he : sqEnd ('\n' :: '\n' :: u) = sqEnd (u.dropWhile (· == '\n')) := by
              rw [h, sqEnd_cons (by decide), sqEnd_dropWhile]
              intro c hc; simp at hc; subst hc; decide
            refine ⟨_, _, '\n' :: '\n' :: u.takeWhile (· == '\n') ++ t, yes_star.2 (.inr ⟨_, _, k, ts, yes_sqBlank u, he ▸ hy, rfl⟩),
              many_sq (p := .blankLines (linesCount ('\n' :: '\n' :: u.takeWhile (· == '\n')) - 1)) ?_ hs, ?_, ?_⟩
            · have := count_blank u
              simp [sem, semKids, act, Consume.escapedSingleQuoteChar, Consume.blankLines, this, Out.bind, Val.asNat]
            · rw [he, List.append_assoc, ← ht]; simp
            · intro _; exact ⟨_, List.mem_cons_self, trivial⟩
        · obtain ⟨ts, ps, t', hy, hs, ht, hb⟩ := ih t.length (by simp at hn; omega) t rfl
          refine ⟨_, _, '\n' :: t', yes_star.2 (.inr ⟨_, _, k, ts, yes_sqBreak hu, h ▸ hy, rfl⟩), many_sq (p := .removableNewline) rfl hs, ?_, ?_⟩
          · rw [h, List.cons_append, ← ht]
          · intro _; exact ⟨_, List.mem_cons_self, trivial⟩
      · have hdc : sqChar c = true := sqChar_iff.2 ⟨h1, hc⟩
        obtain ⟨ts, ps, t', hy, hs, ht, hb⟩ := ih (t.dropWhile sqChar).length
          (by have := (List.dropWhile_sublist (l := t) sqChar).length_le; simp at hn; omega) _ rfl
        have he : sqEnd (c :: t) = sqEnd (t.dropWhile sqChar) := by
          rw [h, sqEnd_dropWhile]
          intro c hc; exact (sqChar_iff.1 hc).1
        refine ⟨_, _, c :: t.takeWhile sqChar ++ t', yes_star.2 (.inr ⟨_, _, k, ts, yes_sqText hdc t, he ▸ hy, rfl⟩),
          many_sq (p := .string (c :: t.takeWhile sqChar)) rfl hs, ?_, ?_⟩
        · rw [he, List.append_assoc, ← ht]; simp
        · intro hm
          rw [List.mem_append] at hm
          rcases hm with hm | hm
          · simp only [List.mem_cons] at hm
            rcases hm with hm | hm
            · exact absurd hm.symm hc
            · have := List.all_takeWhile (l := t) (p := sqChar)
              have := List.all_eq_true.1 this _ hm
              simp [sqChar] at this
          · obtain ⟨p, hp, hp'⟩ := hb hm
            exact ⟨p, by simp [hp], hp'⟩

/-- A content without breaks has the same parts whatever follows the closing quote. -/
theorem sq_two {t : Str} (ht : LineText t) {z : Str} (h : sqEnd (t ++ '\'' :: z) = '\'' :: z) {z' : Str} (hz' : z'.head? ≠ some '\'') :
    ∃ ts, Yes (yamlGrammar T) (.star (.rule .escaped_single_quote_char)) (t ++ '\'' :: z) k ts ('\'' :: z) k ∧
      Yes (yamlGrammar T) (.star (.rule .escaped_single_quote_char)) (t ++ '\'' :: z') k ts ('\'' :: z') k := by
  have hlen : ∀ (a b : Str), a = b → a.length = b.length := fun a b h => by rw [h]
  generalize hn : t.length = n
  induction n using Nat.strongRecOn generalizing t with
  | ind n ih =>
    cases t with
    | nil =>
      have hz : z.head? ≠ some '\'' := by
        intro hz
        cases z with
        | nil => cases hz
        | cons d u =>
          simp at hz; subst hz
          rw [List.nil_append, sqEnd_esc] at h
          obtain ⟨v, hv⟩ := sqEnd_suffix u
          have h1 := hlen _ _ hv
          have h2 := hlen _ _ h
          simp at h1 h2
          omega
      exact ⟨[], yes_star.2 (.inl ⟨no_sqPart (.inr ⟨_, rfl, hz⟩), rfl, rfl, rfl⟩),
        yes_star.2 (.inl ⟨no_sqPart (.inr ⟨_, rfl, hz'⟩), rfl, rfl, rfl⟩)⟩
    | cons c t =>
      by_cases hq : c = '\''
      · subst hq
        cases t with
        | nil =>
          have := hlen _ _ h
          rw [List.cons_append, List.nil_append, sqEnd_esc] at this
          obtain ⟨u, hu⟩ := sqEnd_suffix z
          have h2 := hlen _ _ hu
          simp at this h2
          omega
        | cons d u =>
          by_cases hd : d = '\''
          · subst hd
            have hl : LineText u := ⟨fun hm => ht.1 (by simp [hm]), fun hm => ht.2 (by simp [hm])⟩
            rw [List.cons_append, List.cons_append, sqEnd_esc] at h
            obtain ⟨ts, h1, h2⟩ := ih u.length (by simp at hn; omega) hl h rfl
            exact ⟨_, yes_star.2 (.inr ⟨_, _, k, ts, yes_sqEsc _, h1, rfl⟩),
              yes_star.2 (.inr ⟨_, _, k, ts, yes_sqEsc _, h2, rfl⟩)⟩
          · have := hlen _ _ h
            rw [List.cons_append, List.cons_append, sqEnd_stop (by simp [hd])] at this
            simp at this
            omega
      · have hc : sqChar c = true := sqChar_iff.2 ⟨hq, fun h => ht.1 (by simp [h])⟩
        have hdq : sqChar '\'' = false := by decide
        have e1 := fun z => takeWhile_stop (z := z) hdq t
        have e2 := fun z => dropWhile_stop (z := z) hdq t
        have hl : LineText (t.dropWhile sqChar) := by
          have hsub := (List.dropWhile_sublist (l := t) sqChar)
          exact ⟨fun hm => ht.1 (by simp [hsub.subset hm]), fun hm => ht.2 (by simp [hsub.subset hm])⟩
        have hle := (List.dropWhile_sublist (l := t) sqChar).length_le
        obtain ⟨ts, h1, h2⟩ := ih (t.dropWhile sqChar).length (by simp at hn; omega) hl (by
          rw [← e2, sqEnd_dropWhile fun c hc => (sqChar_iff.1 hc).1]
          rwa [List.cons_append, sqEnd_cons hq] at h) rfl
        have y1 := yes_sqText (T := T) (k := k) hc (t ++ '\'' :: z)
        have y2 := yes_sqText (T := T) (k := k) hc (t ++ '\'' :: z')
        rw [e1, e2] at y1 y2
        exact ⟨_, yes_star.2 (.inr ⟨_, _, k, ts, y1, h1, rfl⟩), yes_star.2 (.inr ⟨_, _, k, ts, y2, h2, rfl⟩)⟩

end YamlSubset
