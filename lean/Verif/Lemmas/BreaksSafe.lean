import Verif.Lemmas.BreaksSim

/-! # Simulation of the grammar on normalized texts -/

namespace YamlSubset

open Peg Spec

variable {T : CharTables} {k : List Str}

/-- Expressions that match texts without breaks. -/
def LineMatch (T : CharTables) (e : Expr Rule) : Prop := ∀ x k ts r k', Yes (yamlGrammar T) e x k ts r k' → ∃ t, x = t ++ r ∧ LineText t

theorem line_append {t u : Str} (ht : LineText t) (hu : LineText u) : LineText (t ++ u) := by
  simp only [LineText, List.mem_append, not_or]
  exact ⟨⟨ht.1, hu.1⟩, ht.2, hu.2⟩

theorem line_nil : LineText [] := by simp [LineText]

theorem LineMatch.str {s : Str} (h : LineText s) : LineMatch T (.str s) := by
  intro x k ts r k' hy
  obtain ⟨-, -, rfl⟩ := yes_str.1 hy
  exact ⟨s, rfl, h⟩

theorem LineMatch.cls {p : Char → Bool} (h : p '\n' = false ∧ p '\r' = false) : LineMatch T (.cls p) := by
  intro x k ts r k' hy
  obtain ⟨c, rfl, hc, -⟩ := yes_cls.1 hy
  refine ⟨[c], rfl, ?_⟩
  simp only [LineText, List.mem_singleton]
  refine ⟨?_, ?_⟩
  · rintro rfl; rw [h.1] at hc; cases hc
  · rintro rfl; rw [h.2] at hc; cases hc

theorem LineMatch.seq {a b : Expr Rule} (ha : LineMatch T a) (hb : LineMatch T b) : LineMatch T (.seq a b) := by
  intro x k ts r k' hy
  obtain ⟨_, s₁, _, _, h1, h2, -⟩ := yes_seq.1 hy
  obtain ⟨t, rfl, ht⟩ := ha _ _ _ _ _ h1
  obtain ⟨u, rfl, hu⟩ := hb _ _ _ _ _ h2
  exact ⟨t ++ u, by simp, line_append ht hu⟩

theorem LineMatch.alt {a b : Expr Rule} (ha : LineMatch T a) (hb : LineMatch T b) : LineMatch T (.alt a b) := by
  intro x k ts r k' hy
  rcases yes_alt.1 hy with h | ⟨-, h⟩
  · exact ha _ _ _ _ _ h
  · exact hb _ _ _ _ _ h

theorem LineMatch.star {a : Expr Rule} (ha : LineMatch T a) : LineMatch T (.star a) := by
  rintro x k ts r k' ⟨n, h⟩
  induction n generalizing x k ts with
  | zero => cases h
  | succ n ih =>
    simp only [eval] at h
    cases h1 : eval (yamlGrammar T) n a x k with
    | fail => rw [h1] at h; simp only [Res.ok.injEq] at h; exact ⟨[], h.2.1, line_nil⟩
    | ok ts₁ s₁ k₁ =>
      rw [h1] at h
      simp only at h
      cases h2 : eval (yamlGrammar T) n (.star a) s₁ k₁ with
      | ok ts₂ s₂ k₂ =>
        rw [h2] at h
        simp only [Res.ok.injEq] at h
        obtain ⟨rfl, rfl, rfl⟩ := h
        obtain ⟨t, rfl, ht⟩ := ha _ _ _ _ _ ⟨n, h1⟩
        obtain ⟨u, rfl, hu⟩ := ih _ _ _ h2
        exact ⟨t ++ u, by simp, line_append ht hu⟩
      | _ => rw [h2] at h; cases h
    | _ => rw [h1] at h; cases h

theorem LineMatch.rule {q : Rule} (h : LineMatch T (q.body T)) : LineMatch T (.rule q) := by
  intro x k ts r k' hy
  obtain ⟨us, hu, -⟩ := yes_rule.1 hy
  exact h _ _ _ _ _ hu

/-- `a` matches wherever there is a break. -/
def StopsAtBreaks (T : CharTables) (a : Expr Rule) : Prop :=
  ∀ x k, No (yamlGrammar T) a x k → x.head? ≠ some '\n' ∧ x.head? ≠ some '\r'

theorem LineMatch.notAny {a : Expr Rule} (h : StopsAtBreaks T a) : LineMatch T (.seq (.not a) Rule.ANY) := by
  intro x k ts r k' hy
  obtain ⟨hn, ⟨c, rfl⟩, -⟩ := yes_not_any.1 hy
  have := h _ _ hn
  simp only [List.head?_cons, ne_eq, Option.some.injEq] at this
  refine ⟨[c], rfl, ?_⟩
  simp only [LineText, List.mem_singleton]
  exact ⟨fun h => this.1 h.symm, fun h => this.2 h.symm⟩

/-- Expressions that treat all line breaks alike. -/
inductive Safe (T : CharTables) : Expr Rule → Prop
  | str {s : Str} (h : LineText s) : Safe T (.str s)
  | cls {p : Char → Bool} (h : p '\n' = false ∧ p '\r' = false) : Safe T (.cls p)
  | newline : Safe T Rule.NEWLINE
  | notAny {a : Expr Rule} (h : StopsAtBreaks T a) (ha : Safe T a) : Safe T (.seq (.not a) Rule.ANY)
  | soi : Safe T .soi
  | eoi : Safe T (.eoi .EOI)
  | rule {r : Rule} (h : r.quotedPart = false) : Safe T (.rule r)
  | seq {a b : Expr Rule} (ha : Safe T a) (hb : Safe T b) : Safe T (.seq a b)
  | alt {a b : Expr Rule} (ha : Safe T a) (hb : Safe T b) : Safe T (.alt a b)
  | opt {a : Expr Rule} (ha : Safe T a) : Safe T (.opt a)
  | star {a : Expr Rule} (ha : Safe T a) : Safe T (.star a)
  | and {a : Expr Rule} (ha : Safe T a) : Safe T (.and a)
  | push {a : Expr Rule} (hl : LineMatch T a) (ha : Safe T a) : Safe T (.push a)
  | peek : Safe T .peek
  | peek2 : Safe T .peek2
  | drop : Safe T .drop

theorem number_break : T.number '\n' = false ∧ T.number '\r' = false :=
  ⟨T.number_not_white _ (by decide), T.number_not_white _ (by decide)⟩
theorem letter_break : T.letter '\n' = false ∧ T.letter '\r' = false :=
  ⟨T.letter_not_white _ (by decide), T.letter_not_white _ (by decide)⟩

theorem stops_newline : StopsAtBreaks T Rule.NEWLINE := fun _ _ h => no_newline.1 h

theorem stops_alt {a b : Expr Rule} (h : StopsAtBreaks T b) : StopsAtBreaks T (.alt a b) := fun x k hn => h x k (no_alt.1 hn).2

theorem stops_rule {q : Rule} (h : StopsAtBreaks T (q.body T)) : StopsAtBreaks T (.rule q) := fun x k hn => h x k (no_rule.1 hn)

theorem sp_line : LineMatch T (.star Rule.SP) := .star (.cls sp_not_break)

/-- Every rule but those inside quoted scalars and the quoted scalars themselves is safe. -/
theorem safe_body (r : Rule) (h : r.quotedPart = false) (h1 : r ≠ .double_quoted_string) (h2 : r ≠ .single_quoted_string) :
    Safe T (r.body T) := by
  cases r <;> first | (cases h; done) | (exact absurd rfl h1) | (exact absurd rfl h2) | skip
  all_goals simp only [Rule.body, Expr.seqs, Expr.alts, Expr.plus]
  all_goals repeat' first
    | exact .newline
    | exact .cls sp_not_break
    | exact .cls number_break
    | exact .cls letter_break
    | exact .soi
    | exact .eoi
    | exact .peek
    | exact .peek2
    | exact .drop
    | exact .rule rfl
    | exact .str (by simp [LineText])
    | exact .push sp_line (.star (.cls sp_not_break))
    | exact .push (.str (by simp [LineText])) (.str (by simp [LineText]))
    | refine .notAny stops_newline ?_
    | refine .notAny (stops_rule ?_) ?_
    | apply Safe.seq
    | apply Safe.alt
    | apply Safe.opt
    | apply Safe.star
    | apply Safe.and
    | exact stops_newline
    | apply stops_alt

/-- What a line break is, for the grammar. -/
theorem newline_sim {x : Str} :
    (∀ ts r k', Yes (yamlGrammar T) Rule.NEWLINE x k ts r k' →
      Yes (yamlGrammar T) Rule.NEWLINE (unixBreaks x) k [] (unixBreaks r) k ∧ ts = [] ∧ CleanCut x r ∧ k' = k) ∧
    (No (yamlGrammar T) Rule.NEWLINE x k → No (yamlGrammar T) Rule.NEWLINE (unixBreaks x) k) := by
  have hyes : ∀ u : Str, Yes (yamlGrammar T) Rule.NEWLINE ('\n' :: u) k [] u k := fun u => yes_alt.2 (.inl (yes_str.2 ⟨rfl, rfl, rfl⟩))
  constructor
  · intro ts r k' h
    simp only [Rule.NEWLINE, Expr.alts, yes_alt, yes_str, no_lit, no_lit2] at h
    rcases h with ⟨rfl, rfl, rfl⟩ | ⟨-, ⟨rfl, rfl, rfl⟩ | ⟨hn, rfl, rfl, rfl⟩⟩
    · refine ⟨?_, rfl, ⟨['\n'], rfl, by simp⟩, rfl⟩
      rw [List.cons_append, List.nil_append, ub_cons (by decide)]; exact hyes _
    · refine ⟨?_, rfl, ⟨['\r', '\n'], rfl, by simp⟩, rfl⟩
      rw [List.cons_append, List.cons_append, List.nil_append, ub_crlf]; exact hyes _
    · have hr : r.head? ≠ some '\n' := by
        intro hr
        cases r with
        | nil => cases hr
        | cons c r => simp at hr; exact hn r (by rw [hr]; rfl)
      refine ⟨?_, rfl, ⟨['\r'], rfl, by simp [hr]⟩, rfl⟩
      rw [List.cons_append, List.nil_append, ub_cr hr]; exact hyes _
  · intro h
    rw [no_newline] at h ⊢
    refine ⟨?_, fun h' => ub_no_cr x (List.mem_of_mem_head? h')⟩
    rcases ub_cases x with ⟨rfl, -⟩ | ⟨c, t, rfl, hn, hr, hu⟩ | ⟨b, t, rfl, hb, hu⟩
    · simp [unixBreaks]
    · rw [hu]; simpa using hn
    · rcases hb with rfl | rfl | ⟨rfl, -⟩ <;> simp at h

theorem lines_cons {t : Str} {k : List Str} : (∀ u ∈ t :: k, LineText u) ↔ LineText t ∧ ∀ u ∈ k, LineText u := by simp

/-- A text without breaks at the start of the input. -/
theorem prefix_sim {t x : Str} (ht : LineText t) : (∃ r, unixBreaks x = t ++ r) ↔ ∃ r, x = t ++ r := by
  constructor
  · rintro ⟨r, hr⟩; exact ub_prefix ht hr
  · rintro ⟨r, rfl⟩; exact ⟨_, ub_line_append ht r⟩

/-- A safe expression does the same on the normalized text. -/
theorem sim (n : Nat) {e : Expr Rule} {x : Str} {k : List Str} (he : Safe T e) (hx : NoBackslashBreak x) (hk : ∀ t ∈ k, LineText t) :
    (∀ ts r k', eval (yamlGrammar T) n e x k = .ok ts r k' →
      ∃ ts', Yes (yamlGrammar T) e (unixBreaks x) k ts' (unixBreaks r) k' ∧ TreesRel T ts ts' ∧ CleanCut x r ∧ ∀ t ∈ k', LineText t) ∧
    (eval (yamlGrammar T) n e x k = .fail → No (yamlGrammar T) e (unixBreaks x) k) := by
  induction n using Nat.strongRecOn generalizing e x k with
  | ind n ih =>
    cases n with
    | zero => exact ⟨fun _ _ _ h => (by cases h), fun h => (by cases h)⟩
    | succ n =>
      have ih' := fun {e x k} => @ih n (by omega) e x k
      cases he with
      | @str s hs =>
        refine ⟨?_, ?_⟩
        · intro ts r k' h
          obtain ⟨rfl, rfl, rfl⟩ := yes_str.1 (⟨n + 1, h⟩ : Yes _ _ _ _ _ _ _)
          exact ⟨[], yes_str.2 ⟨rfl, rfl, ub_line_append hs r⟩, .nil, cleanCut_line hs r, hk⟩
        · intro h
          have := no_str.1 (⟨n + 1, h⟩ : No _ _ _ _)
          exact no_str.2 fun h' => this ((prefix_sim hs).1 h')
      | @cls p hp =>
        refine ⟨?_, ?_⟩
        · intro ts r k' h
          obtain ⟨c, rfl, hc, rfl, rfl⟩ := yes_cls.1 (⟨n + 1, h⟩ : Yes _ _ _ _ _ _ _)
          have h1 : c ≠ '\r' := by rintro rfl; rw [hp.2] at hc; cases hc
          have h2 : c ≠ '\n' := by rintro rfl; rw [hp.1] at hc; cases hc
          exact ⟨[], yes_cls.2 ⟨c, ub_cons h1 r, hc, rfl, rfl⟩, .nil,
            cleanCut_line (t := [c]) (by simp [LineText, Ne.symm h1, Ne.symm h2]) r, hk⟩
        · intro h
          have := no_cls.1 (⟨n + 1, h⟩ : No _ _ _ _)
          refine no_cls.2 ?_
          intro c r hc
          rcases ub_cases x with ⟨-, hu⟩ | ⟨d, t, rfl, -, -, hu⟩ | ⟨b, t, -, -, hu⟩
          · rw [hu] at hc; cases hc
          · rw [hu] at hc; simp only [List.cons.injEq] at hc; exact hc.1 ▸ this d t rfl
          · rw [hu] at hc; simp only [List.cons.injEq] at hc; exact hc.1 ▸ hp.1
      | newline =>
        refine ⟨?_, ?_⟩
        · intro ts r k' h
          obtain ⟨h1, rfl, h3, rfl⟩ := (newline_sim (T := T) (k := k) (x := x)).1 _ _ _ ⟨_, h⟩
          exact ⟨[], h1, .nil, h3, hk⟩
        · intro h; exact newline_sim.2 ⟨_, h⟩
      | @notAny a hst ha =>
        cases n with
        | zero => exact ⟨fun _ _ _ h => (by cases h), fun h => (by cases h)⟩
        | succ n =>
        have iha := ih n (by omega) ha hx hk
        refine ⟨?_, ?_⟩
        · intro ts r k' h
          have hy : Yes (yamlGrammar T) (.seq (.not a) Rule.ANY) x k ts r k' := ⟨_, h⟩
          obtain ⟨hn, ⟨c, rfl⟩, rfl, rfl⟩ := yes_not_any.1 hy
          have hb := hst _ _ hn
          simp only [List.head?_cons, ne_eq, Option.some.injEq] at hb
          have hf : eval (yamlGrammar T) n a (c :: r) k' = .fail := by
            apply hn.eval_eq
            intro ho
            rw [eval, eval, ho] at h
            cases h
          refine ⟨[], yes_not_any.2 ⟨iha.2 hf, ⟨c, ub_cons hb.2 r⟩, rfl, rfl⟩, .nil, cleanCut_line (t := [c]) ?_ r, hk⟩
          simp only [LineText, List.mem_singleton]
          exact ⟨fun h => hb.1 h.symm, fun h => hb.2 h.symm⟩
        · intro h
          simp only [eval] at h
          cases h1 : eval (yamlGrammar T) n a x k with
          | ok ts r k' =>
            obtain ⟨ts', hy, -⟩ := iha.1 _ _ _ h1
            exact no_seq.2 (.inl (no_not.2 ⟨_, _, _, hy⟩))
          | fail =>
            rw [h1] at h
            simp only at h
            cases x with
            | nil => exact no_seq.2 (.inr ⟨[], [], k, yes_not.2 ⟨iha.2 h1, rfl, rfl, rfl⟩, no_cls.2 (by simp)⟩)
            | cons c t => simp [Rule.ANY, eval] at h
          | _ => rw [h1] at h; cases h
      | soi =>
        refine ⟨?_, fun h => (by simp [eval] at h)⟩
        intro ts r k' h
        obtain ⟨rfl, rfl, rfl⟩ := yes_soi.1 (⟨n + 1, h⟩ : Yes _ _ _ _ _ _ _)
        exact ⟨[], yes_soi.2 ⟨rfl, rfl, rfl⟩, .nil, .refl _, hk⟩
      | eoi =>
        refine ⟨?_, ?_⟩
        · intro ts r k' h
          obtain ⟨rfl, rfl, rfl, rfl⟩ := yes_eoi.1 (⟨n + 1, h⟩ : Yes _ _ _ _ _ _ _)
          exact ⟨_, yes_eoi.2 ⟨rfl, rfl, rfl, rfl⟩, .cons .eoi .nil, .refl _, hk⟩
        · intro h
          exact no_eoi.2 fun h' => no_eoi.1 (⟨n + 1, h⟩ : No (yamlGrammar T) _ _ _) (ub_eq_nil h')
      | @rule q hq =>
        by_cases h1 : q = .double_quoted_string
        · subst h1
          have := dqs_sim (T := T) (k := k) hx
          refine ⟨?_, fun h => this.2 ⟨_, h⟩⟩
          intro ts r k' h
          obtain ⟨ts', a, b, c, rfl⟩ := this.1 _ _ _ ⟨_, h⟩
          exact ⟨ts', a, b, c, hk⟩
        by_cases h2 : q = .single_quoted_string
        · subst h2
          have := sqs_sim (T := T) (k := k) (x := x)
          refine ⟨?_, fun h => this.2 ⟨_, h⟩⟩
          intro ts r k' h
          obtain ⟨ts', a, b, c, rfl⟩ := this.1 _ _ _ ⟨_, h⟩
          exact ⟨ts', a, b, c, hk⟩
        have ihb := ih' (safe_body q hq h1 h2) hx hk
        refine ⟨?_, ?_⟩
        · intro ts r k' h
          simp only [eval] at h
          cases hb : eval (yamlGrammar T) n ((yamlGrammar T).body q) x k with
          | ok us rest k₁ =>
            rw [hb] at h
            simp only [Res.ok.injEq] at h
            obtain ⟨rfl, rfl, rfl⟩ := h
            obtain ⟨us', hy, hrel, hcut, hk'⟩ := ihb.1 _ _ _ hb
            refine ⟨_, yes_rule.2 ⟨us', hy, rfl⟩, ?_, hcut, hk'⟩
            show TreesRel T (wrap q.kind q x rest us) (wrap q.kind q (unixBreaks x) (unixBreaks rest) us')
            cases hkind : q.kind with
            | normal => rw [wrap, wrap, hcut.ub]; exact .cons (.node hkind hq ⟨n, hb⟩ hrel) .nil
            | silent => exact hrel
            | atomic => rw [wrap, wrap, hcut.ub]; exact .cons (.leaf hkind hq ⟨n, hb⟩) .nil
          | _ => rw [hb] at h; cases h
        · intro h
          simp only [eval] at h
          cases hb : eval (yamlGrammar T) n ((yamlGrammar T).body q) x k with
          | fail => exact no_rule.2 (ihb.2 hb)
          | _ => rw [hb] at h; cases h
      | @seq a b ha hb =>
        have iha := ih' ha hx hk
        refine ⟨?_, ?_⟩
        · intro ts r k' h
          simp only [eval] at h
          cases h1 : eval (yamlGrammar T) n a x k with
          | ok ts₁ s₁ k₁ =>
            rw [h1] at h
            simp only at h
            obtain ⟨us₁, y1, r1, c1, l1⟩ := iha.1 _ _ _ h1
            cases h2 : eval (yamlGrammar T) n b s₁ k₁ with
            | ok ts₂ s₂ k₂ =>
              rw [h2] at h
              simp only [Res.ok.injEq] at h
              obtain ⟨rfl, rfl, rfl⟩ := h
              obtain ⟨us₂, y2, r2, c2, l2⟩ := (ih' hb (nbb_cut hx c1) l1).1 _ _ _ h2
              exact ⟨_, yes_seq.2 ⟨us₁, _, k₁, us₂, y1, y2, rfl⟩, r1.append r2, c1.trans c2, l2⟩
            | _ => rw [h2] at h; cases h
          | _ => rw [h1] at h; cases h
        · intro h
          simp only [eval] at h
          cases h1 : eval (yamlGrammar T) n a x k with
          | ok ts₁ s₁ k₁ =>
            rw [h1] at h
            simp only at h
            obtain ⟨us₁, y1, r1, c1, l1⟩ := iha.1 _ _ _ h1
            cases h2 : eval (yamlGrammar T) n b s₁ k₁ with
            | fail => exact no_seq.2 (.inr ⟨_, _, _, y1, (ih' hb (nbb_cut hx c1) l1).2 h2⟩)
            | _ => rw [h2] at h; cases h
          | fail => exact no_seq.2 (.inl (iha.2 h1))
          | _ => rw [h1] at h; cases h
      | @alt a b ha hb =>
        have iha := ih' ha hx hk
        have ihb := ih' hb hx hk
        refine ⟨?_, ?_⟩
        · intro ts r k' h
          simp only [eval] at h
          cases h1 : eval (yamlGrammar T) n a x k with
          | ok ts₁ s₁ k₁ =>
            rw [h1] at h
            obtain ⟨us, y1, r1⟩ := iha.1 _ _ _ (h1.trans h)
            exact ⟨us, yes_alt.2 (.inl y1), r1⟩
          | fail =>
            rw [h1] at h
            obtain ⟨us, y1, r1⟩ := ihb.1 _ _ _ h
            exact ⟨us, yes_alt.2 (.inr ⟨iha.2 h1, y1⟩), r1⟩
          | _ => rw [h1] at h; cases h
        · intro h
          simp only [eval] at h
          cases h1 : eval (yamlGrammar T) n a x k with
          | fail => rw [h1] at h; exact no_alt.2 ⟨iha.2 h1, ihb.2 h⟩
          | _ => rw [h1] at h; cases h
      | @opt a ha =>
        have iha := ih' ha hx hk
        refine ⟨?_, fun h => (no_opt ⟨_, h⟩).elim⟩
        intro ts r k' h
        simp only [eval] at h
        cases h1 : eval (yamlGrammar T) n a x k with
        | ok ts₁ s₁ k₁ =>
          rw [h1] at h
          obtain ⟨us, y1, r1⟩ := iha.1 _ _ _ (h1.trans h)
          exact ⟨us, yes_opt.2 (.inl y1), r1⟩
        | fail =>
          rw [h1] at h
          simp only [Res.ok.injEq] at h
          obtain ⟨rfl, rfl, rfl⟩ := h
          exact ⟨[], yes_opt.2 (.inr ⟨iha.2 h1, rfl, rfl, rfl⟩), .nil, .refl _, hk⟩
        | _ => rw [h1] at h; cases h
      | @star a ha =>
        have iha := ih' ha hx hk
        refine ⟨?_, fun h => (no_star ⟨_, h⟩).elim⟩
        intro ts r k' h
        simp only [eval] at h
        cases h1 : eval (yamlGrammar T) n a x k with
        | ok ts₁ s₁ k₁ =>
          rw [h1] at h
          simp only at h
          obtain ⟨us₁, y1, r1, c1, l1⟩ := iha.1 _ _ _ h1
          cases h2 : eval (yamlGrammar T) n (.star a) s₁ k₁ with
          | ok ts₂ s₂ k₂ =>
            rw [h2] at h
            simp only [Res.ok.injEq] at h
            obtain ⟨rfl, rfl, rfl⟩ := h
            obtain ⟨us₂, y2, r2, c2, l2⟩ := (ih' (.star ha) (nbb_cut hx c1) l1).1 _ _ _ h2
            exact ⟨_, yes_star.2 (.inr ⟨us₁, _, k₁, us₂, y1, y2, rfl⟩), r1.append r2, c1.trans c2, l2⟩
          | _ => rw [h2] at h; cases h
        | fail =>
          rw [h1] at h
          simp only [Res.ok.injEq] at h
          obtain ⟨rfl, rfl, rfl⟩ := h
          exact ⟨[], yes_star.2 (.inl ⟨iha.2 h1, rfl, rfl, rfl⟩), .nil, .refl _, hk⟩
        | _ => rw [h1] at h; cases h
      | @and a ha =>
        have iha := ih' ha hx hk
        refine ⟨?_, ?_⟩
        · intro ts r k' h
          simp only [eval] at h
          cases h1 : eval (yamlGrammar T) n a x k with
          | ok ts₁ s₁ k₁ =>
            rw [h1] at h
            simp only [Res.ok.injEq] at h
            obtain ⟨rfl, rfl, rfl⟩ := h
            obtain ⟨us₁, y1, -⟩ := iha.1 _ _ _ h1
            exact ⟨[], yes_and.2 ⟨⟨_, _, _, y1⟩, rfl, rfl, rfl⟩, .nil, .refl _, hk⟩
          | _ => rw [h1] at h; cases h
        · intro h
          simp only [eval] at h
          cases h1 : eval (yamlGrammar T) n a x k with
          | fail => exact no_and.2 (iha.2 h1)
          | _ => rw [h1] at h; cases h
      | @push a hl ha =>
        have iha := ih' ha hx hk
        refine ⟨?_, ?_⟩
        · intro ts r k' h
          simp only [eval] at h
          cases h1 : eval (yamlGrammar T) n a x k with
          | ok ts₁ s₁ k₁ =>
            rw [h1] at h
            simp only [Res.ok.injEq] at h
            obtain ⟨rfl, rfl, rfl⟩ := h
            obtain ⟨us₁, y1, r1, c1, l1⟩ := iha.1 _ _ _ h1
            obtain ⟨t, ht, hlt⟩ := hl _ _ _ _ _ ⟨n, h1⟩
            refine ⟨us₁, yes_push.2 ⟨k₁, y1, ?_⟩, r1, c1, ?_⟩
            · rw [c1.ub, consumed_eq ht, ub_line hlt]
            · rw [consumed_eq ht]; exact lines_cons.2 ⟨hlt, l1⟩
          | _ => rw [h1] at h; cases h
        · intro h
          simp only [eval] at h
          cases h1 : eval (yamlGrammar T) n a x k with
          | fail => exact no_push.2 (iha.2 h1)
          | _ => rw [h1] at h; cases h
      | peek =>
        refine ⟨?_, ?_⟩
        · intro ts r k' h
          obtain ⟨t, l, rfl, rfl, rfl, rfl⟩ := yes_peek.1 (⟨n + 1, h⟩ : Yes _ _ _ _ _ _ _)
          have ht := (lines_cons.1 hk).1
          exact ⟨[], yes_peek.2 ⟨t, l, rfl, rfl, rfl, ub_line_append ht r⟩, .nil, cleanCut_line ht r, hk⟩
        · intro h
          obtain ⟨t, l, rfl, hn⟩ := no_peek.1 (⟨n + 1, h⟩ : No _ _ _ _)
          exact no_peek.2 ⟨t, l, rfl, fun h' => hn ((prefix_sim (lines_cons.1 hk).1).1 h')⟩
      | peek2 =>
        refine ⟨?_, ?_⟩
        · intro ts r k' h
          obtain ⟨t, u, l, rfl, rfl, rfl, rfl⟩ := yes_peek2.1 (⟨n + 1, h⟩ : Yes _ _ _ _ _ _ _)
          have ht : LineText (u ++ t) := line_append (hk u (by simp)) (hk t (by simp))
          exact ⟨[], yes_peek2.2 ⟨t, u, l, rfl, rfl, rfl, ub_line_append ht r⟩, .nil, cleanCut_line ht r, hk⟩
        · intro h
          have hn := no_peek2.1 (⟨n + 1, h⟩ : No _ _ _ _)
          refine no_peek2.2 ?_
          rintro ⟨t, u, l, r, rfl, hr⟩
          have ht : LineText (u ++ t) := line_append (hk u (by simp)) (hk t (by simp))
          obtain ⟨r', hr'⟩ := (prefix_sim ht).1 ⟨r, hr⟩
          exact hn ⟨t, u, l, r', rfl, hr'⟩
      | drop =>
        refine ⟨?_, ?_⟩
        · intro ts r k' h
          have hy := yes_drop.1 (⟨n + 1, h⟩ : Yes _ _ _ _ _ _ _)
          obtain ⟨⟨t, rfl⟩, rfl, rfl⟩ := hy
          exact ⟨[], yes_drop.2 ⟨⟨t, rfl⟩, rfl, rfl⟩, .nil, .refl _, (lines_cons.1 hk).2⟩
        · intro h
          exact no_drop.2 (no_drop.1 (⟨n + 1, h⟩ : No _ _ _ _))

end YamlSubset
