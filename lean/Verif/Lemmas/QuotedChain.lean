import Verif.Lemmas.BreaksSingle

/-! # The parts of a parsed quoted scalar form a chain: adjacent texts and adjacent breaks are one part -/

namespace YamlSubset

open Peg Spec

variable {T : CharTables} {k : List Str}

theorem one_le_blank (u : Str) : 1 ≤ linesCount ('\n' :: '\n' :: u.takeWhile (· == '\n')) - 1 := by
  simp [linesCount, List.count_cons]
  split <;> omega

theorem drop_breaks (u : Str) (h : (u.dropWhile (· == '\n')).head? = some '\n') : False := by
  have := List.head?_dropWhile_not (· == '\n') u
  rw [h] at this
  simp at this

/-- One more part. -/
theorem dqChain_push {p : DQPart} {ps : List DQPart} (hp : DQPartText p) (h : DQChain ps)
    (hs : ∀ s t rest, p = .string s → ps ≠ .string t :: rest)
    (hb : DQBreak p → ∀ q rest, ps = q :: rest → ¬ DQBreak q) : DQChain (p :: ps) := by
  cases ps with
  | nil => exact .one hp
  | cons q ps =>
    refine .cons hp ?_ ?_ h
    · rintro ⟨s, t, rfl, rfl⟩
      exact hs s t ps rfl rfl
    · rintro ⟨h1, h2⟩
      refine hb ?_ q ps rfl ?_
      · rcases h1 with rfl | ⟨n, rfl⟩ <;> trivial
      · rcases h2 with rfl | ⟨n, rfl⟩ <;> trivial

/-- The content of a double quoted scalar is a chain of parts. -/
theorem dq_chain (x : Str) : ∃ ts ps, Yes (yamlGrammar T) (.star (.rule .double_quote_without_escape)) x k ts (dqEnd x) k ∧
    many .double_quote_without_escape Val.asDqPart (semKids ts) = .ok ps ∧ DQChain ps ∧
    (∀ s rest, ps = .string s :: rest → ∃ c t, x = c :: t ∧ dqChar c = true) ∧
    (∀ q rest, ps = q :: rest → DQBreak q → x.head? = some '\n') := by
  generalize hn : x.length = n
  induction n using Nat.strongRecOn generalizing x with
  | ind n ih =>
    rcases dq_cases x with ⟨h, h', h''⟩ | ⟨d, u, rfl, hd, h⟩ | ⟨c, t, rfl, h1, h2, h⟩
    · exact ⟨[], [], yes_star.2 (.inl ⟨no_dqPart h'', rfl, h, rfl⟩), rfl, .nil, by simp, by simp⟩
    · obtain ⟨ts, ps, hy, hs, hc, -, -⟩ := ih u.length (by simp at hn; omega) u rfl
      have he : ∃ e, sem (.node .double_quote_without_escape ['\\', d] [.node .escaped_double_quote_char_value [d] []]) =
          .ok (.dqPart (.escapedChar e)) := by
        simp only [dqEscapes, List.mem_cons, List.not_mem_nil, or_false] at hd
        rcases hd with rfl | rfl | rfl | rfl | rfl | rfl <;> exact ⟨_, rfl⟩
      obtain ⟨e, he⟩ := he
      refine ⟨_, _, yes_star.2 (.inr ⟨_, u, k, ts, yes_dqEsc hd u, h ▸ hy, rfl⟩), many_dq he hs,
        dqChain_push trivial hc (by simp) (fun h => h.elim), by simp, ?_⟩
      intro q rest hq hb
      simp only [List.cons.injEq] at hq
      obtain ⟨rfl, -⟩ := hq
      exact hb.elim
    · by_cases hc : c = '\n'
      · subst hc
        by_cases hu : t.head? = some '\n'
        · cases t with
          | nil => cases hu
          | cons d u =>
            simp only [List.head?_cons, Option.some.injEq] at hu
            subst hu
            obtain ⟨ts, ps, hy, hs, hc, -, hst⟩ := ih (u.dropWhile (· == '\n')).length
              (by have := (List.dropWhile_sublist (l := u) (· == '\n')).length_le; simp at hn; omega) _ rfl
            have he : dqEnd ('\n' :: '\n' :: u) = dqEnd (u.dropWhile (· == '\n')) := by
              rw [h, dqEnd_cons (by decide) (by decide), dqEnd_dropWhile]
              intro c hc; simp at hc; subst hc; decide
            refine ⟨_, _, yes_star.2 (.inr ⟨_, _, k, ts, yes_dqBlank u, he ▸ hy, rfl⟩),
              many_dq (p := .blankLines (linesCount ('\n' :: '\n' :: u.takeWhile (· == '\n')) - 1)) ?_ hs,
              dqChain_push ?_ hc (by simp) ?_, by simp, fun _ _ _ _ => rfl⟩
            · have := count_blank u
              simp [sem, semKids, act, Consume.doubleQuoteWithoutEscape, Consume.blankLines, this, Out.bind, Val.asNat]
            · exact one_le_blank u
            · intro _ q rest hq hb
              exact drop_breaks u (hst q rest hq hb)
        · obtain ⟨ts, ps, hy, hs, hc, -, hst⟩ := ih t.length (by simp at hn; omega) t rfl
          exact ⟨_, _, yes_star.2 (.inr ⟨_, _, k, ts, yes_dqBreak hu, h ▸ hy, rfl⟩), many_dq (p := .removableNewline) rfl hs,
            dqChain_push trivial hc (by simp) (fun _ q rest hq hb => hu (hst q rest hq hb)), by simp, fun _ _ _ _ => rfl⟩
      · have hdc : dqChar c = true := dqChar_iff.2 ⟨h1, h2, hc⟩
        obtain ⟨ts, ps, hy, hs, hch, hst, -⟩ := ih (t.dropWhile dqChar).length
          (by have := (List.dropWhile_sublist (l := t) dqChar).length_le; simp at hn; omega) _ rfl
        have he : dqEnd (c :: t) = dqEnd (t.dropWhile dqChar) := by
          rw [h, dqEnd_dropWhile]
          intro c hc; exact ⟨(dqChar_iff.1 hc).1, (dqChar_iff.1 hc).2.1⟩
        refine ⟨_, _, yes_star.2 (.inr ⟨_, _, k, ts, yes_dqText hdc t, he ▸ hy, rfl⟩),
          many_dq (p := .string (c :: t.takeWhile dqChar)) rfl hs, dqChain_push ?_ hch ?_ (fun h => h.elim), ?_, ?_⟩
        · refine ⟨by simp, ?_⟩
          intro d hd
          apply dqChar_iff.1
          rcases List.mem_cons.1 hd with rfl | hd
          · exact hdc
          · exact List.all_eq_true.1 (List.all_takeWhile (l := t) (p := dqChar)) _ hd
        · rintro _ s rest - hps
          obtain ⟨d, v, hd, hd'⟩ := hst s rest hps
          have := List.head?_dropWhile_not dqChar t
          rw [hd, List.head?_cons] at this
          simp only [hd'] at this
          cases this
        · intro _ _ _; exact ⟨c, t, rfl, hdc⟩
        · intro q rest hq hb
          simp only [List.cons.injEq] at hq
          obtain ⟨rfl, -⟩ := hq
          exact hb.elim

/-- One more part. -/
theorem sqChain_push {p : SQPart} {ps : List SQPart} (hp : SQPartText p) (h : SQChain ps)
    (hs : ∀ s t rest, p = .string s → ps ≠ .string t :: rest)
    (hb : SQBreak p → ∀ q rest, ps = q :: rest → ¬ SQBreak q) : SQChain (p :: ps) := by
  cases ps with
  | nil => exact .one hp
  | cons q ps =>
    refine .cons hp ?_ ?_ h
    · rintro ⟨s, t, rfl, rfl⟩
      exact hs s t ps rfl rfl
    · rintro ⟨h1, h2⟩
      refine hb ?_ q ps rfl ?_
      · rcases h1 with rfl | ⟨n, rfl⟩ <;> trivial
      · rcases h2 with rfl | ⟨n, rfl⟩ <;> trivial

/-- The content of a single quoted scalar is a chain of parts. -/
theorem sq_chain (x : Str) : ∃ ts ps, Yes (yamlGrammar T) (.star (.rule .escaped_single_quote_char)) x k ts (sqEnd x) k ∧
    many .escaped_single_quote_char Val.asSqPart (semKids ts) = .ok ps ∧ SQChain ps ∧
    (∀ s rest, ps = .string s :: rest → ∃ c t, x = c :: t ∧ sqChar c = true) ∧
    (∀ q rest, ps = q :: rest → SQBreak q → x.head? = some '\n') := by
  generalize hn : x.length = n
  induction n using Nat.strongRecOn generalizing x with
  | ind n ih =>
    rcases sq_cases x with ⟨h, h', h''⟩ | ⟨u, rfl, h⟩ | ⟨c, t, rfl, h1, h⟩
    · exact ⟨[], [], yes_star.2 (.inl ⟨no_sqPart h'', rfl, h, rfl⟩), rfl, .nil, by simp, by simp⟩
    · obtain ⟨ts, ps, hy, hs, hc, -, -⟩ := ih u.length (by simp at hn; omega) u rfl
      refine ⟨_, _, yes_star.2 (.inr ⟨_, u, k, ts, yes_sqEsc u, h ▸ hy, rfl⟩), many_sq (p := .escapedChar .singleQuote) rfl hs,
        sqChain_push trivial hc (by simp) (fun h => h.elim), by simp, ?_⟩
      intro q rest hq hb
      simp only [List.cons.injEq] at hq
      obtain ⟨rfl, -⟩ := hq
      exact hb.elim
    · by_cases hc : c = '\n'
      · subst hc
        by_cases hu : t.head? = some '\n'
        · cases t with
          | nil => cases hu
          | cons d u =>
            simp only [List.head?_cons, Option.some.injEq] at hu
            subst hu
            obtain ⟨ts, ps, hy, hs, hc, -, hst⟩ := ih (u.dropWhile (· == '\n')).length
              (by have := (List.dropWhile_sublist (l := u) (· == '\n')).length_le; simp at hn; omega) _ rfl
            have he : sqEnd ('\n' :: '\n' :: u) = sqEnd (u.dropWhile (· == '\n')) := by
              rw [h, sqEnd_cons (by decide), sqEnd_dropWhile]
              intro c hc; simp at hc; subst hc; decide
            refine ⟨_, _, yes_star.2 (.inr ⟨_, _, k, ts, yes_sqBlank u, he ▸ hy, rfl⟩),
              many_sq (p := .blankLines (linesCount ('\n' :: '\n' :: u.takeWhile (· == '\n')) - 1)) ?_ hs,
              sqChain_push ?_ hc (by simp) ?_, by simp, fun _ _ _ _ => rfl⟩
            · have := count_blank u
              simp [sem, semKids, act, Consume.escapedSingleQuoteChar, Consume.blankLines, this, Out.bind, Val.asNat]
            · exact one_le_blank u
            · intro _ q rest hq hb
              exact drop_breaks u (hst q rest hq hb)
        · obtain ⟨ts, ps, hy, hs, hc, -, hst⟩ := ih t.length (by simp at hn; omega) t rfl
          exact ⟨_, _, yes_star.2 (.inr ⟨_, _, k, ts, yes_sqBreak hu, h ▸ hy, rfl⟩), many_sq (p := .removableNewline) rfl hs,
            sqChain_push trivial hc (by simp) (fun _ q rest hq hb => hu (hst q rest hq hb)), by simp, fun _ _ _ _ => rfl⟩
      · have hdc : sqChar c = true := sqChar_iff.2 ⟨h1, hc⟩
        obtain ⟨ts, ps, hy, hs, hch, hst, -⟩ := ih (t.dropWhile sqChar).length
          (by have := (List.dropWhile_sublist (l := t) sqChar).length_le; simp at hn; omega) _ rfl
        have he : sqEnd (c :: t) = sqEnd (t.dropWhile sqChar) := by
          rw [h, sqEnd_dropWhile]
          intro c hc; exact (sqChar_iff.1 hc).1
        refine ⟨_, _, yes_star.2 (.inr ⟨_, _, k, ts, yes_sqText hdc t, he ▸ hy, rfl⟩),
          many_sq (p := .string (c :: t.takeWhile sqChar)) rfl hs, sqChain_push ?_ hch ?_ (fun h => h.elim), ?_, ?_⟩
        · refine ⟨by simp, ?_⟩
          intro d hd
          apply sqChar_iff.1
          rcases List.mem_cons.1 hd with rfl | hd
          · exact hdc
          · exact List.all_eq_true.1 (List.all_takeWhile (l := t) (p := sqChar)) _ hd
        · rintro _ s rest - hps
          obtain ⟨d, v, hd, hd'⟩ := hst s rest hps
          have := List.head?_dropWhile_not sqChar t
          rw [hd, List.head?_cons] at this
          simp only [hd'] at this
          cases this
        · intro _ _ _; exact ⟨c, t, rfl, hdc⟩
        · intro q rest hq hb
          simp only [List.cons.injEq] at hq
          obtain ⟨rfl, -⟩ := hq
          exact hb.elim

/-- The consumed content of a double quoted scalar. -/
theorem dq_content_chain {s r : Str} {k k' : List Str} {us : List (Tree Rule)} {ps : List DQPart}
    (h : Yes (yamlGrammar T) (.star (.rule .double_quote_without_escape)) s k us r k')
    (hp : many .double_quote_without_escape Val.asDqPart (semKids us) = .ok ps) : DQChain ps := by
  obtain ⟨ts, qs, hy, hq, hc, -⟩ := dq_chain (T := T) (k := k) s
  obtain ⟨rfl, -, -⟩ := h.unique hy
  rw [hp] at hq
  cases hq
  exact hc

/-- The consumed content of a single quoted scalar. -/
theorem sq_content_chain {s r : Str} {k k' : List Str} {us : List (Tree Rule)} {ps : List SQPart}
    (h : Yes (yamlGrammar T) (.star (.rule .escaped_single_quote_char)) s k us r k')
    (hp : many .escaped_single_quote_char Val.asSqPart (semKids us) = .ok ps) : SQChain ps := by
  obtain ⟨ts, qs, hy, hq, hc, -⟩ := sq_chain (T := T) (k := k) s
  obtain ⟨rfl, -, -⟩ := h.unique hy
  rw [hp] at hq
  cases hq
  exact hc

end YamlSubset
