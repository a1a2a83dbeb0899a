import Verif.Model.Ser

/-! # Lemmas about splitting, joining, trimming and quoting -/

namespace YamlSubset

/-! ## split and join -/

theorem splitChar_ne_nil (c : Char) (s : Str) : splitChar c s ≠ [] := by
  cases s with
  | nil => simp [splitChar]
  | cons x xs =>
    simp only [splitChar]
    split
    · simp
    · split <;> simp

theorem splitChar_cons_sep (c : Char) (s : Str) : splitChar c (c :: s) = [] :: splitChar c s := by
  simp [splitChar]

theorem splitChar_cons_ne {c x : Char} (h : x ≠ c) (s : Str) :
    ∃ l ls, splitChar c s = l :: ls ∧ splitChar c (x :: s) = (x :: l) :: ls := by
  simp only [splitChar, h, if_false]
  cases hs : splitChar c s with
  | nil => exact absurd hs (splitChar_ne_nil c s)
  | cons l ls => exact ⟨l, ls, rfl, rfl⟩

theorem splitChar_flatMap (c : Char) (s : Str) :
    (splitChar c s).flatMap (fun x => x ++ [c]) = s ++ [c] := by
  induction s with
  | nil => simp [splitChar]
  | cons x xs ih =>
    by_cases h : x = c
    · subst h; simp [splitChar_cons_sep, ih]
    · obtain ⟨l, ls, h1, h2⟩ := splitChar_cons_ne h xs
      rw [h2]; rw [h1] at ih; simp at ih ⊢; exact ih

theorem splitChar_append_sep (c : Char) (s : Str) :
    splitChar c (s ++ [c]) = splitChar c s ++ [[]] := by
  induction s with
  | nil => simp [splitChar]
  | cons x xs ih =>
    by_cases h : x = c
    · subst h; simp [splitChar_cons_sep, ih]
    · obtain ⟨l, ls, h1, h2⟩ := splitChar_cons_ne h xs
      obtain ⟨l', ls', h1', h2'⟩ := splitChar_cons_ne h (xs ++ [c])
      rw [List.cons_append, h2', h2]
      rw [h1, h1'] at ih
      simp at ih ⊢
      exact ih

/-- No piece contains the separator. -/
theorem splitChar_not_mem (c : Char) (s : Str) : ∀ l ∈ splitChar c s, c ∉ l := by
  induction s with
  | nil => simp [splitChar]
  | cons x xs ih =>
    by_cases h : x = c
    · subst h; rw [splitChar_cons_sep]; simpa using ih
    · obtain ⟨l, ls, h1, h2⟩ := splitChar_cons_ne h xs
      rw [h2]; rw [h1] at ih
      intro m hm
      simp at hm
      rcases hm with rfl | hm
      · simp [Ne.symm h]; exact ih l (by simp)
      · exact ih m (by simp [hm])

theorem joinLines_flatMap (l : Str) (ls : List Str) :
    joinLines (l :: ls) ++ ['\n'] = (l :: ls).flatMap (fun x => x ++ ['\n']) := by
  induction ls generalizing l with
  | nil => simp [joinLines]
  | cons m ms ih =>
    have := ih m
    simp only [joinLines, List.flatMap_cons, List.append_assoc, List.cons_append] at this ⊢
    simp [this]

theorem joinLines_splitChar (s : Str) : joinLines (splitChar '\n' s) = s := by
  have h := splitChar_flatMap '\n' s
  cases hs : splitChar '\n' s with
  | nil => exact absurd hs (splitChar_ne_nil _ s)
  | cons l ls =>
    rw [hs, ← joinLines_flatMap] at h
    exact List.append_cancel_right h

/-! ## trimming -/

theorem endsWithChar_iff (s : Str) (c : Char) :
    endsWithChar s c = true ↔ ∃ t, s = t ++ [c] := by
  simp only [endsWithChar, beq_iff_eq]
  constructor
  · intro h
    exact ⟨s.dropLast, by
      have hne : s ≠ [] := by rintro rfl; simp at h
      rw [List.getLast?_eq_some_getLast hne, Option.some.injEq] at h
      rw [← h, List.dropLast_concat_getLast hne]⟩
  · rintro ⟨t, rfl⟩; simp

theorem trimEndMatches_append_singleton (s : Str) (c : Char) :
    trimEndMatches (s ++ [c]) c = trimEndMatches s c := by
  simp [trimEndMatches]

theorem trimEndMatches_of_not_endsWith {s : Str} {c : Char} (h : endsWithChar s c = false) :
    trimEndMatches s c = s := by
  unfold trimEndMatches
  cases hr : s.reverse with
  | nil => simp at hr; simp [hr]
  | cons x xs =>
    have hs : s = xs.reverse ++ [x] := by
      have := congrArg List.reverse hr; simpa using this
    have hx : x ≠ c := by
      rintro rfl
      have : endsWithChar s x = true := (endsWithChar_iff s x).2 ⟨_, hs⟩
      simp [this] at h
    have : (x == c) = false := by simp [hx]
    simp [List.dropWhile, this, hs]

theorem trimEndMatches_spec (s : Str) (c : Char) :
    endsWithChar (trimEndMatches s c) c = false ∧
      ∃ k, s = trimEndMatches s c ++ List.replicate k c := by
  induction h : s.length generalizing s with
  | zero =>
    have : s = [] := by simpa using h
    subst this; simp [trimEndMatches, endsWithChar]
  | succ n ih =>
    cases he : endsWithChar s c with
    | false => rw [trimEndMatches_of_not_endsWith he]; exact ⟨he, 0, by simp⟩
    | true =>
      obtain ⟨t, rfl⟩ := (endsWithChar_iff s c).1 he
      rw [trimEndMatches_append_singleton]
      obtain ⟨h1, k, h2⟩ := ih t (by simpa using h)
      refine ⟨h1, k + 1, ?_⟩
      rw [List.replicate_succ', ← List.append_assoc, ← h2]

theorem trimEndMatches_append_replicate {t : Str} {c : Char} (k : Nat)
    (h : endsWithChar t c = false) : trimEndMatches (t ++ List.replicate k c) c = t := by
  induction k with
  | zero => simpa using trimEndMatches_of_not_endsWith h
  | succ k ih => rw [List.replicate_succ', ← List.append_assoc, trimEndMatches_append_singleton, ih]

/-! ## literal -/

theorem popIfLastEmpty_append_nil (l : List Str) : popIfLastEmpty (l ++ [[]]) = l := by
  simp [popIfLastEmpty]

theorem createLiteral_newline (t : Str) :
    createLiteral (t ++ ['\n']) = splitChar '\n' t := by
  have : endsWithChar (t ++ ['\n']) '\n' = true := (endsWithChar_iff _ _).2 ⟨t, rfl⟩
  simp [createLiteral, this, splitChar_append_sep, popIfLastEmpty_append_nil]

theorem createLiteral_other {s : Str} (h : endsWithChar s '\n' = false) :
    createLiteral s = splitChar '\n' s := by simp [createLiteral, h]

/-! ## quoted parts -/

theorem parseSingleQuoted_append (a b : List SQPart) :
    parseSingleQuoted (a ++ b) = parseSingleQuoted a ++ parseSingleQuoted b := by
  simp [parseSingleQuoted]

theorem parseDoubleQuoted_append (a b : List DQPart) :
    parseDoubleQuoted (a ++ b) = parseDoubleQuoted a ++ parseDoubleQuoted b := by
  simp [parseDoubleQuoted]

theorem strToSQPartsAux_value (s : Str) (parts : List SQPart) (buf : Str) :
    parseSingleQuoted (strToSQPartsAux parts buf s) = parseSingleQuoted parts ++ buf ++ s := by
  induction s generalizing parts buf with
  | nil =>
    cases buf <;> simp [strToSQPartsAux, parseSingleQuoted, SQPart.value]
  | cons x xs ih =>
    simp only [strToSQPartsAux]
    split
    · rename_i h; subst h
      rw [ih]
      cases buf <;> simp [parseSingleQuoted, SQPart.value, SQEscapedChar.char]
    · rw [ih]; simp

theorem sqQuoteLoop_eq (parts : List SQPart) (buf : Str) (s : Str) :
    sqQuoteLoop parts buf s = strToSQPartsAux parts buf s := by
  induction s generalizing parts buf with
  | nil => rfl
  | cons x xs ih => simp only [sqQuoteLoop, strToSQPartsAux]; split <;> simp [ih]

theorem flushDQ_value (parts : List DQPart) (buf : Str) :
    parseDoubleQuoted (flushDQ parts buf) = parseDoubleQuoted parts ++ buf := by
  cases buf <;> simp [flushDQ, parseDoubleQuoted, DQPart.value]

theorem dqBackslashLoop_value (s : Str) (parts : List DQPart) (buf : Str) :
    parseDoubleQuoted (dqBackslashLoop parts buf s) = parseDoubleQuoted parts ++ buf ++ s := by
  induction s generalizing parts buf with
  | nil => simp [dqBackslashLoop, flushDQ_value]
  | cons x xs ih =>
    simp only [dqBackslashLoop]
    split
    · rename_i h; subst h
      rw [ih, parseDoubleQuoted_append, flushDQ_value]
      simp [parseDoubleQuoted, DQPart.value, DQEscapedChar.realChar]
    · rw [ih]; simp

theorem dqNewlineLoop_value (s : Str) (parts : List DQPart) (buf : Str) :
    parseDoubleQuoted (dqNewlineLoop parts buf s) = parseDoubleQuoted parts ++ buf ++ s := by
  induction s generalizing parts buf with
  | nil => simp [dqNewlineLoop, flushDQ_value]
  | cons x xs ih =>
    simp only [dqNewlineLoop]
    split
    · rename_i h; subst h
      rw [ih, parseDoubleQuoted_append, flushDQ_value]
      simp [parseDoubleQuoted, DQPart.value, DQEscapedChar.realChar]
    · split
      · rename_i h; subst h
        rw [ih, parseDoubleQuoted_append, flushDQ_value]
        simp [parseDoubleQuoted, DQPart.value, DQEscapedChar.realChar]
      · split
        · rename_i h; subst h
          rw [ih, parseDoubleQuoted_append, flushDQ_value]
          simp [parseDoubleQuoted, DQPart.value, DQEscapedChar.realChar]
        · split
          · rename_i h; subst h
            rw [ih, parseDoubleQuoted_append, flushDQ_value]
            simp [parseDoubleQuoted, DQPart.value, DQEscapedChar.realChar]
          · rw [ih]; simp

end YamlSubset
