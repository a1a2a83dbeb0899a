import Verif.Lemmas.Breaks
import Verif.Lemmas.BlockPanic

/-! # What the rules for quoted scalars match -/

namespace YamlSubset

open Peg Spec

variable {T : CharTables} {k : List Str}

theorem yes_node {q : Rule} {s t r : Str} {k' : List Str} {us : List (Tree Rule)} (hq : q.kind = .normal)
    (h : Yes (yamlGrammar T) (q.body T) s k us r k') (hs : s = t ++ r) : Yes (yamlGrammar T) (.rule q) s k [.node q t us] r k' := by
  refine yes_rule.2 ⟨us, h, ?_⟩
  show _ = wrap q.kind q s r us
  rw [hq, wrap, consumed_eq hs]

theorem yes_silent {q : Rule} {s r : Str} {k' : List Str} {us : List (Tree Rule)} (hq : q.kind = .silent)
    (h : Yes (yamlGrammar T) (q.body T) s k us r k') : Yes (yamlGrammar T) (.rule q) s k us r k' := by
  refine yes_rule.2 ⟨us, h, ?_⟩
  show _ = wrap q.kind q s r us
  rw [hq, wrap]

theorem no_of {q : Rule} {s : Str} (h : No (yamlGrammar T) (q.body T) s k) : No (yamlGrammar T) (.rule q) s k := no_rule.2 h

/-- A repetition of single characters. -/
theorem yes_dropWhile {e : Expr Rule} {p : Char → Bool} (h1 : ∀ c t, p c = true → Yes (yamlGrammar T) e (c :: t) k [] t k)
    (h0 : ∀ s : Str, (∀ c, s.head? = some c → p c = false) → No (yamlGrammar T) e s k) (s : Str) :
    Yes (yamlGrammar T) (.star e) s k [] (s.dropWhile p) k := by
  induction s with
  | nil => exact yes_star.2 (.inl ⟨h0 [] (by simp), rfl, rfl, rfl⟩)
  | cons c t ih =>
    cases hp : p c with
    | true =>
      simp only [List.dropWhile_cons, hp, if_true]
      exact yes_star.2 (.inr ⟨[], t, k, [], h1 c t hp, ih, rfl⟩)
    | false =>
      have : (c :: t).dropWhile p = c :: t := by simp [hp]
      rw [this]
      exact yes_star.2 (.inl ⟨h0 _ (by simp [hp]), rfl, rfl, rfl⟩)

theorem takeWhile_stop {p : Char → Bool} {q : Char} {z : Str} (hq : p q = false) (t : Str) :
    (t ++ q :: z).takeWhile p = t.takeWhile p := by
  induction t with
  | nil => simp [hq]
  | cons c t ih => simp [List.takeWhile_cons, ih]

theorem dropWhile_stop {p : Char → Bool} {q : Char} {z : Str} (hq : p q = false) (t : Str) :
    (t ++ q :: z).dropWhile p = t.dropWhile p ++ q :: z := by
  induction t with
  | nil => simp [hq]
  | cons c t ih =>
    simp only [List.cons_append, List.dropWhile_cons, ih]
    split <;> rfl

/-- The characters that may follow a backslash. -/
def dqEscapes : List Char := ['n', '\\', 'r', 't', '"', '\n']

/-- Where the content of a double quoted scalar ends. -/
def dqEnd : Str → Str
  | [] => []
  | c :: t =>
    if c = '"' then c :: t
    else if c = '\\' then
      match t with
      | [] => c :: t
      | d :: u => if d ∈ dqEscapes then dqEnd u else c :: t
    else dqEnd t

theorem dqEnd_quote (t : Str) : dqEnd ('"' :: t) = '"' :: t := by rw [dqEnd.eq_def]; simp
theorem dqEnd_esc {d : Char} (h : d ∈ dqEscapes) (u : Str) : dqEnd ('\\' :: d :: u) = dqEnd u := by simp [dqEnd, h]
theorem dqEnd_bad {d : Char} (h : d ∉ dqEscapes) (u : Str) : dqEnd ('\\' :: d :: u) = '\\' :: d :: u := by simp [dqEnd, h]
theorem dqEnd_last : dqEnd ['\\'] = ['\\'] := by simp [dqEnd]
theorem dqEnd_cons {c : Char} (h : c ≠ '"') (h' : c ≠ '\\') (t : Str) : dqEnd (c :: t) = dqEnd t := by
  rw [dqEnd.eq_def]; simp [h, h']

/-- The ways to take the content of a double quoted scalar apart. -/
theorem dq_cases (x : Str) : (dqEnd x = x ∧ x.head? ≠ some '\n' ∧ (x = [] ∨ (∃ t, x = '"' :: t) ∨ x = ['\\'] ∨ ∃ d u, x = '\\' :: d :: u ∧ d ∉ dqEscapes)) ∨
    (∃ d u, x = '\\' :: d :: u ∧ d ∈ dqEscapes ∧ dqEnd x = dqEnd u) ∨
    ∃ c t, x = c :: t ∧ c ≠ '"' ∧ c ≠ '\\' ∧ dqEnd x = dqEnd t := by
  cases x with
  | nil => exact .inl ⟨rfl, by simp, .inl rfl⟩
  | cons c t =>
    by_cases h : c = '"'
    · subst h; exact .inl ⟨dqEnd_quote t, by simp, .inr (.inl ⟨t, rfl⟩)⟩
    · by_cases h' : c = '\\'
      · subst h'
        cases t with
        | nil => exact .inl ⟨dqEnd_last, by simp, .inr (.inr (.inl rfl))⟩
        | cons d u =>
          by_cases hd : d ∈ dqEscapes
          · exact .inr (.inl ⟨d, u, rfl, hd, dqEnd_esc hd u⟩)
          · exact .inl ⟨dqEnd_bad hd u, by simp, .inr (.inr (.inr ⟨d, u, rfl, hd⟩))⟩
      · exact .inr (.inr ⟨c, t, rfl, h, h', dqEnd_cons h h' t⟩)

theorem dqEnd_suffix (x : Str) : ∃ t, x = t ++ dqEnd x := by
  generalize hn : x.length = n
  induction n using Nat.strongRecOn generalizing x with
  | ind n ih =>
    rcases dq_cases x with ⟨h, -⟩ | ⟨d, u, rfl, -, h⟩ | ⟨c, t, rfl, -, -, h⟩
    · exact ⟨[], by rw [h]; rfl⟩
    · obtain ⟨t, ht⟩ := ih u.length (by simp at hn; omega) u rfl
      exact ⟨'\\' :: d :: t, by rw [h, List.cons_append, List.cons_append, ← ht]⟩
    · obtain ⟨t', ht⟩ := ih t.length (by simp at hn; omega) t rfl
      exact ⟨c :: t', by rw [h, List.cons_append, ← ht]⟩

theorem dqEnd_head (x : Str) : (dqEnd x).head? ≠ some '\n' := by
  generalize hn : x.length = n
  induction n using Nat.strongRecOn generalizing x with
  | ind n ih =>
    rcases dq_cases x with ⟨h, h', -⟩ | ⟨d, u, rfl, -, h⟩ | ⟨c, t, rfl, -, -, h⟩
    · rw [h]; exact h'
    · rw [h]; exact ih u.length (by simp at hn; omega) u rfl
    · rw [h]; exact ih t.length (by simp at hn; omega) t rfl

theorem dqEnd_cut (x : Str) : CleanCut x (dqEnd x) := cleanCut_head (dqEnd_suffix x) (dqEnd_head x)

theorem dqEnd_dropWhile {p : Char → Bool} (hp : ∀ c, p c = true → c ≠ '"' ∧ c ≠ '\\') (t : Str) : dqEnd (t.dropWhile p) = dqEnd t := by
  induction t with
  | nil => rfl
  | cons c t ih =>
    cases h : p c with
    | true => simp only [List.dropWhile_cons, h, if_true]; rw [ih, dqEnd_cons (hp c h).1 (hp c h).2]
    | false => simp [h]

/-- The end of the content does not depend on how lines are broken. -/
theorem dqEnd_ub {x : Str} (hx : NoBackslashBreak x) : dqEnd (unixBreaks x) = unixBreaks (dqEnd x) := by
  generalize hn : x.length = n
  induction n using Nat.strongRecOn generalizing x with
  | ind n ih =>
    rcases dq_cases x with ⟨h, h', h''⟩ | ⟨d, u, rfl, hd, h⟩ | ⟨c, t, rfl, h1, h2, h⟩
    · rw [h]
      rcases h'' with rfl | ⟨t, rfl⟩ | rfl | ⟨d, u, rfl, hd⟩
      · rfl
      · rw [ub_cons (by decide), dqEnd_quote]
      · rfl
      · have := (hx [] d u rfl)
        rw [ub_cons (by decide), ub_cons this.2, dqEnd_bad hd]
    · have := (hx [] d u rfl)
      rw [h, ub_cons (by decide), ub_cons this.2, dqEnd_esc hd]
      exact ih u.length (by simp at hn; omega) (nbb_tail (nbb_tail hx)) rfl
    · rw [h]
      rcases ub_cases (c :: t) with ⟨h', -⟩ | ⟨d, u, h', -, -, hu⟩ | ⟨b, u, hb, hb', hu⟩
      · cases h'
      · cases h'
        rw [hu, dqEnd_cons h1 h2]
        exact ih t.length (by simp at hn; omega) (nbb_tail hx) rfl
      · rw [hu, dqEnd_cons (by decide) (by decide)]
        have hlt : u.length < n := by
          rw [← hn, hb]
          rcases hb' with rfl | rfl | ⟨rfl, -⟩ <;> simp
          omega
        rw [ih u.length hlt (by rw [hb] at hx; exact nbb_suffix hx) rfl]
        congr 1
        rcases hb' with rfl | rfl | ⟨rfl, -⟩
        · simp only [List.cons_append, List.nil_append, List.cons.injEq] at hb
          rw [hb.2]
        · simp only [List.cons_append, List.nil_append, List.cons.injEq] at hb
          rw [hb.2, dqEnd_cons (by decide) (by decide)]
        · simp only [List.cons_append, List.nil_append, List.cons.injEq] at hb
          rw [hb.2]

/-! ## the parts of a double quoted scalar -/

/-- Characters of texts in double quotes. -/
def dqChar (c : Char) : Bool := c != '"' && c != '\\' && c != '\n'

theorem dqChar_iff {c : Char} : dqChar c = true ↔ c ≠ '"' ∧ c ≠ '\\' ∧ c ≠ '\n' := by simp [dqChar, and_assoc]

theorem yes_dqChar {c : Char} {t : Str} (h : dqChar c = true) :
    Yes (yamlGrammar T) (.seq (.not (.alts [Rule.lit '"', Rule.lit '\\', Rule.lit '\n'])) Rule.ANY) (c :: t) k [] t k := by
  refine yes_not_any.2 ⟨?_, ⟨c, rfl⟩, rfl, rfl⟩
  have := dqChar_iff.1 h
  simp only [Expr.alts, no_alt, no_lit, List.head?_cons, ne_eq, Option.some.injEq]
  exact this

theorem no_dqChar {s : Str} (h : ∀ c, s.head? = some c → dqChar c = false) :
    No (yamlGrammar T) (.seq (.not (.alts [Rule.lit '"', Rule.lit '\\', Rule.lit '\n'])) Rule.ANY) s k := by
  cases s with
  | nil =>
    refine no_seq.2 (.inr ⟨[], [], k, yes_not.2 ⟨?_, rfl, rfl, rfl⟩, ?_⟩)
    · simp only [Expr.alts, no_alt, no_lit]; simp
    · rw [Rule.ANY, no_cls]; simp
  | cons c t =>
    refine no_seq.2 (.inl (no_not.2 ⟨[], t, k, ?_⟩))
    have := h c rfl
    simp only [dqChar, Bool.and_eq_false_iff, bne_eq_false_iff_eq] at this
    simp only [Expr.alts, yes_alt, yes_str, no_lit, List.cons_append, List.nil_append, List.cons.injEq, and_true, true_and,
      List.head?_cons, ne_eq, Option.some.injEq]
    rcases this with (rfl | rfl) | rfl <;> decide

/-- An escape. -/
theorem yes_dqEsc {d : Char} (h : d ∈ dqEscapes) (u : Str) :
    Yes (yamlGrammar T) (.rule .double_quote_without_escape) ('\\' :: d :: u) k
      [.node .double_quote_without_escape ['\\', d] [.node .escaped_double_quote_char_value [d] []]] u k := by
  refine yes_node rfl (yes_alt.2 (.inl (yes_silent rfl (yes_seq.2 ⟨[], d :: u, k, _, yes_str.2 ⟨rfl, rfl, rfl⟩,
    yes_node rfl ?_ (t := [d]) rfl, rfl⟩)))) rfl
  show Yes _ (Expr.alts [Rule.lit 'n', Rule.lit '\\', Rule.lit 'r', Rule.lit 't', Rule.lit '"', Rule.lit '\n']) _ _ _ _ _
  simp only [Expr.alts, yes_alt, yes_str, no_lit, List.cons_append, List.nil_append, List.cons.injEq, and_true, true_and,
      List.head?_cons, ne_eq, Option.some.injEq]
  simp only [dqEscapes, List.mem_cons, List.not_mem_nil, or_false] at h
  rcases h with rfl | rfl | rfl | rfl | rfl | rfl <;> decide

theorem no_esc {s : Str} (h : s.head? ≠ some '\\') : No (yamlGrammar T) (.rule .escaped_double_quote_char) s k :=
  no_of (no_seq.2 (.inl (no_lit.2 h)))

/-- Several line feeds. -/
theorem yes_blank (u : Str) : Yes (yamlGrammar T) (.rule .blank_lines) ('\n' :: '\n' :: u) k
    [.node .blank_lines ('\n' :: '\n' :: u.takeWhile (· == '\n')) []] (u.dropWhile (· == '\n')) k := by
  refine yes_node rfl (yes_seq.2 ⟨[], '\n' :: u, k, [], yes_str.2 ⟨rfl, rfl, rfl⟩,
    yes_seq.2 ⟨[], u, k, [], yes_str.2 ⟨rfl, rfl, rfl⟩, ?_, rfl⟩, rfl⟩) (by simp)
  apply yes_dropWhile
  · intro c t hc
    simp only [beq_iff_eq] at hc
    subst hc
    exact yes_str.2 ⟨rfl, rfl, rfl⟩
  · intro s hs
    refine no_lit.2 fun h => ?_
    simpa using hs _ h

theorem no_blank {s : Str} (h : ∀ u, s ≠ '\n' :: '\n' :: u) : No (yamlGrammar T) (.rule .blank_lines) s k := by
  apply no_of
  show No _ (.seq (.str ['\n']) (.seq (.str ['\n']) _)) _ _
  cases s with
  | nil => exact no_seq.2 (.inl (no_lit.2 (by simp)))
  | cons c t =>
    by_cases hc : c = '\n'
    · subst hc
      refine no_seq.2 (.inr ⟨[], t, k, yes_str.2 ⟨rfl, rfl, rfl⟩, no_seq.2 (.inl (no_lit.2 ?_))⟩)
      intro ht
      cases t with
      | nil => cases ht
      | cons d t => simp at ht; exact h t (by rw [ht])
    · exact no_seq.2 (.inl (no_lit.2 (by simp [hc])))

theorem yes_dqBlank (u : Str) : Yes (yamlGrammar T) (.rule .double_quote_without_escape) ('\n' :: '\n' :: u) k
    [.node .double_quote_without_escape ('\n' :: '\n' :: u.takeWhile (· == '\n'))
      [.node .blank_lines ('\n' :: '\n' :: u.takeWhile (· == '\n')) []]] (u.dropWhile (· == '\n')) k :=
  yes_node rfl (yes_alt.2 (.inr ⟨no_esc (by simp), yes_alt.2 (.inl (yes_blank u))⟩)) (by simp)

theorem yes_dqBreak {u : Str} (h : u.head? ≠ some '\n') : Yes (yamlGrammar T) (.rule .double_quote_without_escape) ('\n' :: u) k
    [.node .double_quote_without_escape ['\n'] [.node .removable_newline ['\n'] []]] u k :=
  yes_node rfl (yes_alt.2 (.inr ⟨no_esc (by simp), yes_alt.2 (.inr ⟨no_blank (by rintro v hv; simp at hv; simp [hv] at h),
    yes_alt.2 (.inl (yes_node rfl (yes_str.2 ⟨rfl, rfl, rfl⟩) rfl))⟩)⟩)) rfl

/-- A text. -/
theorem yes_dqText {c : Char} (h : dqChar c = true) (u : Str) : Yes (yamlGrammar T) (.rule .double_quote_without_escape) (c :: u) k
    [.node .double_quote_without_escape (c :: u.takeWhile dqChar) [.node .double_quote_text (c :: u.takeWhile dqChar) []]]
    (u.dropWhile dqChar) k := by
  have hc := dqChar_iff.1 h
  refine yes_node rfl (yes_alt.2 (.inr ⟨no_esc (by simp [hc.2.1]), yes_alt.2 (.inr ⟨no_blank (by rintro v hv; simp [hc.2.2] at hv),
    yes_alt.2 (.inr ⟨no_of (no_lit.2 (by simp [hc.2.2])), yes_node rfl ?_ (by simp)⟩)⟩)⟩)) (by simp)
  exact yes_seq.2 ⟨[], u, k, [], yes_dqChar h, yes_dropWhile (fun c t h => yes_dqChar h) (fun s h => no_dqChar h) u, rfl⟩

/-- No part. -/
theorem no_dqPart {x : Str} (h : x = [] ∨ (∃ t, x = '"' :: t) ∨ x = ['\\'] ∨ ∃ d u, x = '\\' :: d :: u ∧ d ∉ dqEscapes) :
    No (yamlGrammar T) (.rule .double_quote_without_escape) x k := by
  have hn : x.head? ≠ some '\n' := by rcases h with rfl | ⟨t, rfl⟩ | rfl | ⟨d, u, rfl, hd⟩ <;> simp
  refine no_of (no_alt.2 ⟨?_, no_alt.2 ⟨no_blank ?_, no_alt.2 ⟨no_of (no_lit.2 hn), no_of (no_seq.2 (.inl (no_dqChar ?_)))⟩⟩⟩)
  · rcases h with rfl | ⟨t, rfl⟩ | rfl | ⟨d, u, rfl, hd⟩
    · exact no_esc (by simp)
    · exact no_esc (by simp)
    · refine no_of (no_seq.2 (.inr ⟨[], [], k, yes_str.2 ⟨rfl, rfl, rfl⟩, no_of ?_⟩))
      simp only [Rule.body, Expr.alts, no_alt, no_lit]
      decide
    · refine no_of (no_seq.2 (.inr ⟨[], d :: u, k, yes_str.2 ⟨rfl, rfl, rfl⟩, no_of ?_⟩))
      simp only [Rule.body, Expr.alts, no_alt, no_lit, List.head?_cons, ne_eq, Option.some.injEq]
      simpa [dqEscapes] using hd
  · rintro u rfl; simp at hn
  · rcases h with rfl | ⟨t, rfl⟩ | rfl | ⟨d, u, rfl, hd⟩ <;> simp [dqChar]

/-- Consuming one more part. -/
theorem many_dq {text : Str} {us ts : List (Tree Rule)} {p : DQPart} {ps : List DQPart}
    (h : sem (.node .double_quote_without_escape text us) = .ok (.dqPart p))
    (h' : many .double_quote_without_escape Val.asDqPart (semKids ts) = .ok ps) :
    many .double_quote_without_escape Val.asDqPart (semKids ([.node .double_quote_without_escape text us] ++ ts)) = .ok (p :: ps) := by
  simp only [List.cons_append, List.nil_append, semKids, many, if_true, h, Out.bind, Val.asDqPart, h']

theorem count_blank (u : Str) : linesCount ('\n' :: '\n' :: u.takeWhile (· == '\n')) ≠ 0 := by
  simp [linesCount, List.count_cons]

/-- The content of a double quoted scalar: where it ends, and its parts. -/
theorem dq_content (x : Str) : ∃ ts ps t, Yes (yamlGrammar T) (.star (.rule .double_quote_without_escape)) x k ts (dqEnd x) k ∧
    many .double_quote_without_escape Val.asDqPart (semKids ts) = .ok ps ∧ x = t ++ dqEnd x ∧
    (NoBackslashBreak x → '\n' ∈ t → ∃ p ∈ ps, DQBreak p) := by
  generalize hn : x.length = n
  induction n using Nat.strongRecOn generalizing x with
  | ind n ih =>
    rcases dq_cases x with ⟨h, h', h''⟩ | ⟨d, u, rfl, hd, h⟩ | ⟨c, t, rfl, h1, h2, h⟩
    · exact ⟨[], [], [], yes_star.2 (.inl ⟨no_dqPart h'', rfl, h, rfl⟩), rfl, h.symm, by simp⟩
    · obtain ⟨ts, ps, t, hy, hs, ht, hb⟩ := ih u.length (by simp at hn; omega) u rfl
      have he : ∃ e, sem (.node .double_quote_without_escape ['\\', d] [.node .escaped_double_quote_char_value [d] []]) =
          .ok (.dqPart (.escapedChar e)) := by
        simp only [dqEscapes, List.mem_cons, List.not_mem_nil, or_false] at hd
        rcases hd with rfl | rfl | rfl | rfl | rfl | rfl <;> exact ⟨_, rfl⟩
      obtain ⟨e, he⟩ := he
      refine ⟨_, _, '\\' :: d :: t, yes_star.2 (.inr ⟨_, u, k, ts, yes_dqEsc hd u, h ▸ hy, rfl⟩), many_dq he hs, ?_, ?_⟩
      · rw [h, List.cons_append, List.cons_append, ← ht]
      · intro hx hm
        have hdn := (hx [] d u rfl).1
        simp only [List.mem_cons] at hm
        rcases hm with hm | hm | hm
        · cases hm
        · exact absurd hm.symm hdn
        · obtain ⟨p, hp, hp'⟩ := hb (nbb_tail (nbb_tail hx)) hm
          exact ⟨p, by simp [hp], hp'⟩
    · by_cases hc : c = '\n'
      · subst hc
        by_cases hu : t.head? = some '\n'
        · cases t with
          | nil => cases hu
          | cons d u =>
            simp only [List.head?_cons, Option.some.injEq] at hu
            subst hu
            obtain ⟨ts, ps, t, hy, hs, ht, hb⟩ := ih (u.dropWhile (· == '\n')).length
              (by have := (List.dropWhile_sublist (l := u) (· == '\n')).length_le; simp at hn; omega) _ rfl
            have he : dqEnd ('\n' :: '\n' :: u) = dqEnd (u.dropWhile (· == '\n')) := by
              rw [h, dqEnd_cons (by decide) (by decide), dqEnd_dropWhile]
              intro c hc; simp at hc; subst hc; decide
            refine ⟨_, _, '\n' :: '\n' :: u.takeWhile (· == '\n') ++ t, yes_star.2 (.inr ⟨_, _, k, ts, yes_dqBlank u, he ▸ hy, rfl⟩),
              many_dq (p := .blankLines (linesCount ('\n' :: '\n' :: u.takeWhile (· == '\n')) - 1)) ?_ hs, ?_, ?_⟩
            · have := count_blank u
              simp [sem, semKids, act, Consume.doubleQuoteWithoutEscape, Consume.blankLines, this, Out.bind, Val.asNat]
            · rw [he, List.append_assoc, ← ht]; simp
            · intro _ _; exact ⟨_, List.mem_cons_self, trivial⟩
        · obtain ⟨ts, ps, t', hy, hs, ht, hb⟩ := ih t.length (by simp at hn; omega) t rfl
          refine ⟨_, _, '\n' :: t', yes_star.2 (.inr ⟨_, _, k, ts, yes_dqBreak hu, h ▸ hy, rfl⟩), many_dq (p := .removableNewline) rfl hs, ?_, ?_⟩
          · rw [h, List.cons_append, ← ht]
          · intro _ _; exact ⟨_, List.mem_cons_self, trivial⟩
      · have hdc : dqChar c = true := dqChar_iff.2 ⟨h1, h2, hc⟩
        obtain ⟨ts, ps, t', hy, hs, ht, hb⟩ := ih (t.dropWhile dqChar).length
          (by have := (List.dropWhile_sublist (l := t) dqChar).length_le; simp at hn; omega) _ rfl
        have he : dqEnd (c :: t) = dqEnd (t.dropWhile dqChar) := by
          rw [h, dqEnd_dropWhile]
          intro c hc; exact ⟨(dqChar_iff.1 hc).1, (dqChar_iff.1 hc).2.1⟩
        refine ⟨_, _, c :: t.takeWhile dqChar ++ t', yes_star.2 (.inr ⟨_, _, k, ts, yes_dqText hdc t, he ▸ hy, rfl⟩),
          many_dq (p := .string (c :: t.takeWhile dqChar)) rfl hs, ?_, ?_⟩
        · rw [he, List.append_assoc, ← ht]; simp
        · intro hx hm
          rw [List.mem_append] at hm
          rcases hm with hm | hm
          · simp only [List.mem_cons] at hm
            rcases hm with hm | hm
            · exact absurd hm.symm hc
            · have := List.all_takeWhile (l := t) (p := dqChar)
              have := List.all_eq_true.1 this _ hm
              simp [dqChar] at this
          · have hx' : NoBackslashBreak (t.dropWhile dqChar) := by
              apply nbb_suffix (t := c :: t.takeWhile dqChar)
              simpa using hx
            obtain ⟨p, hp, hp'⟩ := hb hx' hm
            exact ⟨p, by simp [hp], hp'⟩

/-- A content without breaks has the same parts whatever follows the closing quote. -/
theorem dq_two {t : Str} (ht : LineText t) {z : Str} (h : dqEnd (t ++ '"' :: z) = '"' :: z) (z' : Str) :
    ∃ ts, Yes (yamlGrammar T) (.star (.rule .double_quote_without_escape)) (t ++ '"' :: z) k ts ('"' :: z) k ∧
      Yes (yamlGrammar T) (.star (.rule .double_quote_without_escape)) (t ++ '"' :: z') k ts ('"' :: z') k := by
  generalize hn : t.length = n
  induction n using Nat.strongRecOn generalizing t with
  | ind n ih =>
    cases t with
    | nil => exact ⟨[], yes_star.2 (.inl ⟨no_dqPart (.inr (.inl ⟨_, rfl⟩)), rfl, rfl, rfl⟩),
        yes_star.2 (.inl ⟨no_dqPart (.inr (.inl ⟨_, rfl⟩)), rfl, rfl, rfl⟩)⟩
    | cons c t =>
      have hlen : ∀ (a b : Str), a = b → a.length = b.length := fun a b h => by rw [h]
      by_cases hq : c = '"'
      · subst hq
        rw [List.cons_append, dqEnd_quote] at h
        have := hlen _ _ h
        simp at this
        omega
      · by_cases hb : c = '\\'
        · subst hb
          cases t with
          | nil =>
            have := hlen _ _ h
            rw [List.cons_append, List.nil_append, dqEnd_esc (by decide)] at this
            obtain ⟨u, hu⟩ := dqEnd_suffix z
            have h2 := hlen _ _ hu
            simp at this h2
            omega
          | cons d u =>
            by_cases hd : d ∈ dqEscapes
            · have hl : LineText u := ⟨fun hm => ht.1 (by simp [hm]), fun hm => ht.2 (by simp [hm])⟩
              rw [List.cons_append, List.cons_append, dqEnd_esc hd] at h
              obtain ⟨ts, h1, h2⟩ := ih u.length (by simp at hn; omega) hl h rfl
              exact ⟨_, yes_star.2 (.inr ⟨_, _, k, ts, yes_dqEsc hd _, h1, rfl⟩),
                yes_star.2 (.inr ⟨_, _, k, ts, yes_dqEsc hd _, h2, rfl⟩)⟩
            · have := hlen _ _ h
              rw [List.cons_append, List.cons_append, dqEnd_bad hd] at this
              simp at this
              omega
        · have hc : dqChar c = true := dqChar_iff.2 ⟨hq, hb, fun h => ht.1 (by simp [h])⟩
          have hdq : dqChar '"' = false := by decide
          have e1 := fun z => takeWhile_stop (z := z) hdq t
          have e2 := fun z => dropWhile_stop (z := z) hdq t
          have hl : LineText (t.dropWhile dqChar) := by
            have hsub := (List.dropWhile_sublist (l := t) dqChar)
            exact ⟨fun hm => ht.1 (by simp [hsub.subset hm]), fun hm => ht.2 (by simp [hsub.subset hm])⟩
          have hle := (List.dropWhile_sublist (l := t) dqChar).length_le
          obtain ⟨ts, h1, h2⟩ := ih (t.dropWhile dqChar).length (by simp at hn; omega) hl (by
            rw [← e2, dqEnd_dropWhile fun c hc => ⟨(dqChar_iff.1 hc).1, (dqChar_iff.1 hc).2.1⟩]
            rwa [List.cons_append, dqEnd_cons hq hb] at h) rfl
          have y1 := yes_dqText (T := T) (k := k) hc (t ++ '"' :: z)
          have y2 := yes_dqText (T := T) (k := k) hc (t ++ '"' :: z')
          rw [e1, e2] at y1 y2
          exact ⟨_, yes_star.2 (.inr ⟨_, _, k, ts, y1, h1, rfl⟩), yes_star.2 (.inr ⟨_, _, k, ts, y2, h2, rfl⟩)⟩

end YamlSubset
