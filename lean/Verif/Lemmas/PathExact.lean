import Verif.Lemmas.PathParse
import Verif.Lemmas.PathShape
import Verif.Lemmas.NumberText
import Verif.Lemmas.BlockPanic
import Verif.Spec.PathText

/-! # Which texts without spaces parse as paths -/

namespace YamlSubset

open Peg Spec PRule

local notation "G" => pathGrammar

/-! ## every path text is parsed -/

/-- The index of a step fits 64 bits. -/
def SmallStep : Step → Prop
  | .index n _ => n < 2 ^ 64
  | _ => True

instance (s : Step) : Decidable (SmallStep s) := by
  cases s <;> simp only [SmallStep] <;> infer_instance

theorem indexesFit_key {k : Str} {cs : List Condition} {steps : List Step} :
    IndexesFit (.key k cs (pathOf steps)) ↔ ∀ s ∈ steps, SmallStep s := by
  induction steps generalizing k cs with
  | nil => simp [pathOf, IndexesFit]
  | cons s t ih =>
    have hkey : ∀ k cs, IndexesFit (.key k cs (pathOf t)) ↔ ∀ s ∈ t, SmallStep s := fun k cs => ih
    cases ht : pathOf t with
    | none =>
      have h := (hkey k cs).1 (by rw [ht]; trivial)
      rw [List.forall_mem_cons, and_iff_left h]
      cases s <;> simp [pathOf, IndexesFit, ht, SmallStep]
    | some p =>
      have h := hkey k cs
      rw [ht, IndexesFit] at h
      cases s <;> simp [pathOf, IndexesFit, ht, SmallStep, h]

theorem Spec.Digits.no_space {ds : Str} (h : Digits ds) : ∀ c ∈ ds, c ≠ ' ' := by
  rintro c hc rfl
  have := h _ hc
  simp at this

theorem yes_digits {ds : Str} (hd : Digits ds) (h0 : ds ≠ []) (r : Str) (k) :
    ∃ ws, Yes G (.rule index_number) (ds ++ ']' :: r) k [.node index_number ds ws] (']' :: r) k := by
  have hsp := hd.no_space
  have hf : NoSpace ds := fun h => hsp _ (List.mem_of_mem_head? h) rfl
  have hl : ds.getLast? ≠ some ' ' := fun h => hsp _ (List.mem_of_getLast? h) rfl
  obtain ⟨ws, hws⟩ := yes_run oneChar_digit h0 hf hl (List.all_eq_true.1 (digits_iff.1 hd))
    (r := ']' :: r) ⟨by simp [isDigit], by simp [NoSpace]⟩ k
  exact ⟨ws, yes_rule.2 ⟨ws, hws, by simp [wrap, pathGrammar, PRule.kind, consumed_app]⟩⟩

theorem parseU64_of_digits {ds : Str} (hd : Digits ds) (h0 : ds ≠ []) :
    parseU64 ds = if numberOf ds < 2 ^ 64 then some (numberOf ds) else none := by
  split
  · rename_i h
    exact parseU64_iff.2 ⟨.digits hd h0, h⟩
  · rename_i h
    cases hp : parseU64 ds with
    | none => rfl
    | some n =>
      obtain ⟨h1, h2⟩ := parseU64_iff.1 hp
      rw [h1.value (.digits hd h0)] at h2
      exact absurd h2 h

theorem yes_stepText {s : Step} {t : Str} (h : StepText s t) {r : Str} (hr : AfterSegment s.conditions r) (k) :
    ∃ u, Yes G (.rule part) (t ++ r) k [u] r k ∧
      psemKids [u] = [(part, if SmallStep s then .ok (.path (stepPath s)) else .panic)] := by
  cases h with
  | @key k' cs hk hc =>
    have := yes_part (s := .key k' cs) ⟨by rintro _ _ ⟨⟩; exact hk, hc, nofun⟩ hr k
    rwa [if_pos (show SmallStep (.key k' cs) from trivial)]
  | @all cs hc =>
    have := yes_part (s := .all cs) ⟨nofun, hc, nofun⟩ hr k
    rwa [if_pos (show SmallStep (.all cs) from trivial)]
  | @index ds cs hd h0 hc =>
    obtain ⟨ts, h1, h2⟩ := yes_conds cs hc hr k
    have hh := head_conditions cs hr
    have hn : NoSpace (renderConditions cs ++ r) := by
      intro h
      rcases hh _ h with h | h | h <;> cases h
    obtain ⟨ws, h3⟩ := yes_digits hd h0 (renderConditions cs ++ r) k
    have hf' : NoSpace (ds ++ ']' :: (renderConditions cs ++ r)) := by
      cases ds with
      | nil => exact absurd rfl h0
      | cons c t => have := hd.no_space c (by simp); simpa [NoSpace] using this
    have h5 := yes_sq (yes_str (t := ['[']) (s := '[' :: (ds ++ ']' :: (renderConditions cs ++ r))) |>.2 ⟨rfl, rfl, rfl⟩)
      hf' (yes_sq (yes_alt (b := .rule index_all) |>.2 (.inl h3)) (by simp [NoSpace])
        (yes_sq (yes_str (t := [']']) |>.2 ⟨rfl, rfl, rfl⟩) hn h1))
    refine ⟨.node part (consumed ('[' :: (ds ++ ']' :: (renderConditions cs ++ r))) r) (.node index_number ds ws :: ts), ?_, ?_⟩
    · have : '[' :: (ds ++ ']' :: renderConditions cs) ++ r = '[' :: (ds ++ ']' :: (renderConditions cs ++ r)) := by simp
      rw [this]
      exact yes_rule.2 ⟨_, yes_alt.2 (.inr ⟨no_sq_left (no_lit.2 (by simp)), yes_rule.2 ⟨_, h5, rfl⟩⟩), rfl⟩
    · simp only [psemKids, psem, pact, parseU64_of_digits hd h0]
      by_cases hb : numberOf ds < 2 ^ 64
      · rw [if_pos (show SmallStep (.index (numberOf ds) cs) from hb)]
        simp only [if_pos hb, Out.unwrapOpt, Out.bind_ok, PVal.asIdx, h2, stepPath]
      · rw [if_neg (show ¬ SmallStep (.index (numberOf ds) cs) from hb)]
        simp only [if_neg hb]
        rfl

theorem after_stepsText {cs : List Condition} {steps : List Step} {u : Str} (h : StepsText cs steps u) :
    AfterSegment cs u := by
  cases h with
  | nil => exact ⟨by simp, by simp⟩
  | cons h ht hu =>
    constructor
    · intro c hc
      cases ht <;> simp at hc <;> subst hc <;> simp
    · intro hne hh
      have := h hne
      cases ht <;> simp [Step.isKey] at this
      simp at hh

theorem pmany_outcome {s : Step} {t : List Step} {kids : PKids}
    (h : pmany part PVal.asPath kids = if ∀ s ∈ t, SmallStep s then .ok (t.map stepPath) else .panic) :
    pmany part PVal.asPath ([(part, if SmallStep s then .ok (.path (stepPath s)) else .panic)] ++ kids) =
      if ∀ x ∈ s :: t, SmallStep x then .ok ((s :: t).map stepPath) else .panic := by
  by_cases h1 : SmallStep s
  · simp only [List.singleton_append, pmany, if_true, if_pos h1, Out.bind_ok, PVal.asPath, h]
    by_cases h2 : ∀ s ∈ t, SmallStep s
    · rw [if_pos h2, if_pos (by simpa [h1] using h2)]
      rfl
    · rw [if_neg h2, if_neg (by simpa [h1] using h2)]
      rfl
  · simp only [List.singleton_append, pmany, if_true, if_neg h1]
    rw [if_neg (fun hh => h1 (hh s (by simp)))]
    rfl

theorem yes_stepsText_star {cs : List Condition} {steps : List Step} {u : Str} (h : StepsText cs steps u) (k) :
    ∃ ts, Yes G (.star (.seq skip (.rule part))) u k ts [] k ∧
      pmany part PVal.asPath (psemKids ts) = if ∀ s ∈ steps, SmallStep s then .ok (steps.map stepPath) else .panic := by
  induction h with
  | nil =>
    exact ⟨[], yes_star.2 (.inl ⟨no_seq.2 (.inr ⟨_, _, _, yes_skip_nil (by simp [NoSpace]), no_part_nil k⟩), rfl, rfl, rfl⟩), rfl⟩
  | @cons cs s ss t u h ht hu ih =>
    obtain ⟨ts, h1, h2⟩ := ih
    obtain ⟨v, h3, h4⟩ := yes_stepText ht (after_stepsText hu) k
    have hn := (after_stepsText (.cons h ht hu)).noSpace
    refine ⟨[v] ++ ts, yes_star.2 (.inr ⟨[v], _, k, ts, yes_seq.2 ⟨[], _, k, [v], yes_skip_nil hn, h3, rfl⟩, h1, rfl⟩), ?_⟩
    rw [psemKids_append, h4]
    exact pmany_outcome h2

theorem yes_stepsText {cs : List Condition} {steps : List Step} {u : Str} (h : StepsText cs steps u) (k) :
    ∃ ts, Yes G (st (.rule part)) u k ts [] k ∧
      pmany part PVal.asPath (psemKids ts) = if ∀ s ∈ steps, SmallStep s then .ok (steps.map stepPath) else .panic := by
  cases h with
  | nil => exact ⟨[], yes_st_nil (no_part_nil k), rfl⟩
  | @cons _ s ss t u h ht hu =>
    obtain ⟨ts, h1, h2⟩ := yes_stepsText_star hu k
    obtain ⟨v, h3, h4⟩ := yes_stepText ht (after_stepsText hu) k
    refine ⟨[v] ++ ts, yes_opt.2 (.inl (yes_seq.2 ⟨[v], _, k, ts, h3, h1, rfl⟩)), ?_⟩
    rw [psemKids_append, h4]
    exact pmany_outcome h2

open Classical in
/-- The text of a path is read, unless an index is too large. -/
theorem yes_pathText {s : Str} {p : YamlPath} (h : PathText s p) :
    ∃ t, Yes G (.rule final_path) s [] [t] [] [] ∧ psem t = if IndexesFit p then .ok (.path p) else .panic := by
  cases h with
  | @root cs hc =>
    rw [if_pos (show IndexesFit (.root cs) from trivial)]
    exact yes_root cs hc
  | @key k cs steps u hk hc hu =>
    have ha := after_stepsText hu
    obtain ⟨t, h1, h2⟩ := yes_key hk cs hc ha []
    obtain ⟨ts, h3, h4⟩ := yes_stepsText hu []
    have h5 : Yes G (.rule path) (k ++ renderConditions cs ++ u) [] [.node path (k ++ renderConditions cs ++ u) (t :: ts)] [] [] := by
      refine yes_rule.2 ⟨_, yes_sq (by simpa using h1) ha.noSpace h3, ?_⟩
      have : consumed (k ++ renderConditions cs ++ u) [] = k ++ renderConditions cs ++ u := consumed_eq (by simp)
      simp only [wrap, pathGrammar, PRule.kind, this]
      rfl
    refine ⟨_, yes_rule.2 ⟨_, yes_sq (yes_alt.2 (.inl h5)) (by simp [NoSpace]) (yes_eoi.2 ⟨rfl, rfl, rfl, rfl⟩), rfl⟩, ?_⟩
    have h6 : psemKids (t :: ts) = (key, .ok (.path (.key k cs none))) :: psemKids ts := by
      have := psemKids_append [t] ts
      rw [h2] at this
      exact this
    simp only [psem, psemKids, List.singleton_append, pact, h6, Out.bind_ok, PVal.asPath, h4]
    by_cases hs : ∀ s ∈ steps, SmallStep s
    · rw [if_pos hs, if_pos (indexesFit_key.2 hs)]
      simp only [Out.bind_ok, foldl_insert, appendSteps]
      cases pathOf steps <;> rfl
    · rw [if_neg hs, if_neg (fun h => hs (indexesFit_key.1 h))]
      rfl

/-! ## nothing else is parsed -/

theorem Yes.no_space {e : Expr PRule} {s k ts r k'} (h : Yes G e s k ts r k') (hs : ' ' ∉ s) : ' ' ∉ r := by
  obtain ⟨t, rfl⟩ := h.suffix
  simp at hs
  exact hs.2

theorem head_no_space {s : Str} (h : ' ' ∉ s) : NoSpace s := fun hh => h (List.mem_of_mem_head? hh)

theorem inv_skip {s k ts r k'} (h : Yes G skip s k ts r k') (hs : ' ' ∉ s) : ts = [] ∧ r = s ∧ k' = k := by
  obtain ⟨h1, h2, h3⟩ := h.unique (yes_skip_nil (head_no_space hs))
  exact ⟨h1, h2, h3⟩

theorem inv_sq {a b : Expr PRule} {s k ts r k'} (h : Yes G (sq a b) s k ts r k') (hs : ' ' ∉ s) :
    ∃ ts₁ s₁ k₁ ts₂, Yes G a s k ts₁ s₁ k₁ ∧ Yes G b s₁ k₁ ts₂ r k' ∧ ' ' ∉ s₁ := by
  obtain ⟨_, _, _, _, h1, h2, -⟩ := yes_seq.1 h
  obtain ⟨_, _, _, _, h3, h4, -⟩ := yes_seq.1 h2
  have hn := Yes.no_space h1 hs
  obtain ⟨-, rfl, rfl⟩ := inv_skip h3 hn
  exact ⟨_, _, _, _, h1, h4, hn⟩

/-- Some repetitions of an expression. -/
inductive Reps (e : Expr PRule) : Str → Str → Prop
  | nil {s} : Reps e s s
  | cons {s s₁ r k ts k₁} (h : Yes G e s k ts s₁ k₁) (ht : Reps e s₁ r) : Reps e s r

theorem inv_st {e : Expr PRule} {s k ts r k'} (h : Yes G (st e) s k ts r k') (hs : ' ' ∉ s) : Reps e s r := by
  rcases yes_opt.1 h with h | ⟨-, rfl, rfl, rfl⟩
  · obtain ⟨_, s₁, _, _, h1, h2, -⟩ := yes_seq.1 h
    refine .cons h1 ?_
    refine Yes.star_ind (r := r) (k' := k') (C := fun s _ _ => ' ' ∉ s → Reps e s r) ?_ ?_ h2 (Yes.no_space h1 hs)
    · exact fun _ _ => .nil
    · intro s k _ s₁ k₁ _ h3 _ ih hn
      obtain ⟨_, _, _, _, h4, h5, -⟩ := yes_seq.1 h3
      obtain ⟨-, rfl, rfl⟩ := inv_skip h4 hn
      exact .cons h5 (ih (Yes.no_space h3 hn))
  · exact .nil

theorem inv_run {e : Expr PRule} {p : Char → Bool} (he : OneChar e p) {s k ts r k'} (h : Yes G (pl e) s k ts r k')
    (hs : ' ' ∉ s) : ∃ t, s = t ++ r ∧ t ≠ [] ∧ (∀ c ∈ t, p c = true) ∧ ∀ c, r.head? = some c → p c = false := by
  have hsplit : s.takeWhile p ++ s.dropWhile p = s := List.takeWhile_append_dropWhile
  have hstop : ∀ c, (s.dropWhile p).head? = some c → p c = false := by
    intro c hc
    have := List.head?_dropWhile_not p s
    rw [hc] at this
    simpa using this
  by_cases h0 : s.takeWhile p = []
  · exfalso
    rw [h0, List.nil_append] at hsplit
    rw [hsplit] at hstop
    exact h.not_no (no_sq_left (he.no _ _ hstop))
  · have hn1 : ' ' ∉ s.takeWhile p := fun hh => hs (hsplit ▸ List.mem_append_left _ hh)
    have hn2 : ' ' ∉ s.dropWhile p := fun hh => hs (hsplit ▸ List.mem_append_right _ hh)
    obtain ⟨ws, hy⟩ := yes_run he h0 (head_no_space hn1) (fun hh => hn1 (List.mem_of_getLast? hh))
      (fun c hc => List.all_eq_true.1 List.all_takeWhile c hc) ⟨hstop, head_no_space hn2⟩ k
    rw [hsplit] at hy
    obtain ⟨-, rfl, -⟩ := h.unique hy
    exact ⟨_, hsplit.symm, h0, fun c hc => List.all_eq_true.1 List.all_takeWhile c hc, hstop⟩

theorem cleanText_of {stop : List Char} {t : Str} (h0 : t ≠ []) (hs : ' ' ∉ t) (hi : ∀ c ∈ t, c ∉ stop) : CleanText stop t :=
  ⟨h0, head_no_space hs, fun h => hs (List.mem_of_getLast? h), hi⟩

theorem inv_condition {s k ts r k'} (h : Yes G (sq (lit '|') (.rule condition)) s k ts r k') (hs : ' ' ∉ s) :
    ∃ c, CleanCondition c ∧ s = '|' :: (c.field ++ '=' :: (c.value ++ r)) ∧ r.head? ≠ some '[' := by
  obtain ⟨_, s₁, _, _, h1, h2, hn1⟩ := inv_sq h hs
  obtain ⟨-, -, rfl⟩ := yes_str.1 h1
  obtain ⟨_, h3, -⟩ := yes_rule.1 h2
  obtain ⟨_, s₂, _, _, h4, h5, hn2⟩ := inv_sq h3 hn1
  obtain ⟨_, s₃, _, _, h6, h7, hn3⟩ := inv_sq h5 hn2
  obtain ⟨-, -, rfl⟩ := yes_str.1 h6
  obtain ⟨_, h8, -⟩ := yes_rule.1 h4
  obtain ⟨_, h9, -⟩ := yes_rule.1 h7
  obtain ⟨f, rfl, hf0, hf, -⟩ := inv_run oneChar_field h8 hn1
  obtain ⟨v, rfl, hv0, hv, hr⟩ := inv_run oneChar_value h9 hn3
  refine ⟨⟨f, v⟩, ⟨cleanText_of hf0 ?_ ?_, cleanText_of hv0 ?_ ?_⟩, rfl, ?_⟩
  · exact fun h => hn1 (List.mem_append_left _ h)
  · intro c hc; have := hf c hc; simpa [fieldChar] using this
  · exact fun h => hn3 (List.mem_append_left _ h)
  · intro c hc; have := hv c hc; simpa [valueChar] using this
  · intro h; have := hr _ h; simp [valueChar] at this

theorem inv_conds {s k ts r k'} (h : Yes G conds s k ts r k') (hs : ' ' ∉ s) :
    ∃ cs, (∀ c ∈ cs, CleanCondition c) ∧ s = renderConditions cs ++ r ∧ (cs ≠ [] → r.head? ≠ some '[') := by
  have hr := inv_st h hs
  clear h
  induction hr with
  | nil => exact ⟨[], by simp, rfl, by simp⟩
  | cons h ht ih =>
    obtain ⟨c, hc, rfl, hh⟩ := inv_condition h hs
    obtain ⟨cs, hcs, rfl, hr⟩ := ih (Yes.no_space h hs)
    refine ⟨c :: cs, by simpa using ⟨hc, hcs⟩, by simp [renderConditions], fun _ => ?_⟩
    cases cs with
    | nil => exact hh
    | cons d cs => exact hr (by simp)

theorem inv_key {s k ts r k'} (h : Yes G (.rule key) s k ts r k') (hs : ' ' ∉ s) :
    ∃ key' cs, CleanKey key' ∧ (∀ c ∈ cs, CleanCondition c) ∧ s = key' ++ (renderConditions cs ++ r) ∧
      (cs ≠ [] → r.head? ≠ some '[') := by
  obtain ⟨_, h1, -⟩ := yes_rule.1 h
  obtain ⟨_, s₁, _, _, h2, h3, hn1⟩ := inv_sq h1 hs
  obtain ⟨_, h4, -⟩ := yes_rule.1 h2
  obtain ⟨t, rfl, ht0, ht, -⟩ := inv_run oneChar_key h4 hs
  obtain ⟨cs, hcs, rfl, hr⟩ := inv_conds h3 hn1
  refine ⟨t, cs, cleanText_of ht0 (fun h => hs (List.mem_append_left _ h)) ?_, hcs, rfl, hr⟩
  intro c hc
  have := ht c hc
  simpa [keyChar, and_assoc] using this

theorem inv_part {s k ts r k'} (h : Yes G (.rule part) s k ts r k') (hs : ' ' ∉ s) :
    ∃ st t, StepText st t ∧ s = t ++ r ∧ (s.head? ≠ some '[' → st.isKey = true) ∧
      (st.conditions ≠ [] → r.head? ≠ some '[') := by
  obtain ⟨_, h1, -⟩ := yes_rule.1 h
  rcases yes_alt.1 h1 with h1 | ⟨-, h1⟩
  · obtain ⟨_, s₁, _, _, h2, h3, hn1⟩ := inv_sq h1 hs
    obtain ⟨-, -, rfl⟩ := yes_str.1 h2
    obtain ⟨key', cs, hk, hc, rfl, hr⟩ := inv_key h3 hn1
    exact ⟨.key key' cs, _, .key hk hc, by simp, fun _ => rfl, hr⟩
  · obtain ⟨_, h1, -⟩ := yes_rule.1 h1
    obtain ⟨_, s₁, _, _, h2, h3, hn1⟩ := inv_sq h1 hs
    obtain ⟨-, -, rfl⟩ := yes_str.1 h2
    obtain ⟨_, s₂, _, _, h4, h5, hn2⟩ := inv_sq h3 hn1
    obtain ⟨_, s₃, _, _, h6, h7, hn3⟩ := inv_sq h5 hn2
    obtain ⟨-, -, rfl⟩ := yes_str.1 h6
    obtain ⟨cs, hcs, rfl, hr⟩ := inv_conds h7 hn3
    rcases yes_alt.1 h4 with h4 | ⟨-, h4⟩
    · obtain ⟨_, h4, -⟩ := yes_rule.1 h4
      obtain ⟨ds, rfl, hd0, hd, -⟩ := inv_run oneChar_digit h4 hn1
      exact ⟨.index (numberOf ds) cs, _, .index (digits_iff.2 (List.all_eq_true.2 hd)) hd0 hcs, by simp, by simp, hr⟩
    · obtain ⟨_, h4, -⟩ := yes_rule.1 h4
      obtain ⟨-, -, rfl⟩ := yes_str.1 h4
      exact ⟨.all cs, _, .all hcs, by simp, by simp, hr⟩

theorem inv_parts {s r : Str} (h : Reps (.rule part) s r) (hs : ' ' ∉ s) {cs : List Condition}
    (hcs : cs ≠ [] → s.head? ≠ some '[') : ∃ steps u, StepsText cs steps u ∧ s = u ++ r := by
  induction h generalizing cs with
  | nil => exact ⟨[], [], .nil, rfl⟩
  | cons h ht ih =>
    obtain ⟨st, t, h1, h2, h3, h4⟩ := inv_part h hs
    obtain ⟨steps, u, h5, h6⟩ := ih (Yes.no_space h hs) h4
    exact ⟨st :: steps, t ++ u, .cons (fun hne => h3 (hcs hne)) h1 h5, by rw [h2, h6]; simp⟩

/-- A text without spaces that is accepted is the text of a path. -/
theorem inv_path {s ts r k'} (h : Yes G (.rule final_path) s [] ts r k') (hs : ' ' ∉ s) : ∃ p, PathText s p := by
  obtain ⟨_, h1, -⟩ := yes_rule.1 h
  obtain ⟨_, s₁, _, _, h2, h3, hn1⟩ := inv_sq h1 hs
  obtain ⟨rfl, -⟩ := yes_eoi.1 h3
  rcases yes_alt.1 h2 with h2 | ⟨-, h2⟩
  · obtain ⟨_, h2, -⟩ := yes_rule.1 h2
    obtain ⟨_, s₂, _, _, h4, h5, hn2⟩ := inv_sq h2 hs
    obtain ⟨key', cs, hk, hc, rfl, hr⟩ := inv_key h4 hs
    obtain ⟨steps, u, hu, rfl⟩ := inv_parts (inv_st h5 hn2) hn2 hr
    refine ⟨.key key' cs (pathOf steps), ?_⟩
    have := PathText.key hk hc hu
    simpa using this
  · obtain ⟨_, h2, -⟩ := yes_rule.1 h2
    obtain ⟨_, s₂, _, _, h4, h5, hn2⟩ := inv_sq h2 hs
    obtain ⟨_, h4, -⟩ := yes_rule.1 h4
    obtain ⟨-, -, h6⟩ := yes_str.1 h4
    obtain ⟨cs, hc, h7, hr⟩ := inv_conds h5 hn2
    refine ⟨.root cs, ?_⟩
    have : s = renderConditions cs := by
      rw [h6, h7]; simp
    rw [this]
    exact .root hc

end YamlSubset
