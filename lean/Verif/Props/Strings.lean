import Verif.Lemmas.Strings
import Verif.Lemmas.Folded
import Verif.Spec.Quoted

/-! # Properties of string styles (C01 - C05) -/

namespace YamlSubset

open Spec

/-! ## C01 -/

/-- **C01** Writing any string as a literal block, with the chomping `pretty` chooses, and
reading the block gives the string back. -/
theorem C01_literal_roundtrip (s : Str) :
    parseLiteral (createLiteral s) (if endsWithChar s '\n' then .keep else .strip) = s := by
  cases h : endsWithChar s '\n' with
  | false =>
    simp [createLiteral_other h, parseLiteral, joinLines_splitChar, handleEndingNewlines,
      trimEndMatches_of_not_endsWith h]
  | true =>
    obtain ⟨t, rfl⟩ := (endsWithChar_iff _ _).1 h
    simp [createLiteral_newline, parseLiteral, joinLines_splitChar, handleEndingNewlines]

/-- The lines of a literal block contain no newline, so they can be written one per line. -/
theorem C01_literal_lines (s : Str) : ∀ l ∈ createLiteral s, '\n' ∉ l := by
  intro l hl
  refine splitChar_not_mem '\n' s l ?_
  unfold createLiteral popIfLastEmpty at hl
  simp only at hl
  split at hl
  · split at hl
    · exact List.dropLast_subset _ hl
    · exact hl
  · exact hl

example : createLiteral c!" a\n\n b\n\n" = [c!" a", c!"", c!" b", c!""] := rfl

/-! ## C02 -/

/-- Folding at `n` bytes and reading back keeps the string. The exact class is in `Props/FoldExact`. -/
def FoldingKeeps (n : Nat) (s : Str) : Prop :=
  parseFolded (createFolded s n) (if endsWithChar s '\n' then .keep else .strip) = s

/-- A simple sufficient condition: no word reaches `n` bytes, no two spaces in a row, no line
starts or ends with a space and the string does not start with a newline. -/
theorem C02_folded_words (n : Nat) (s : Str) (hnl : startsWithChar s '\n' = false)
    (hw : ∀ x ∈ splitChar '\n' s, x ≠ [] → ∀ w ∈ splitChar ' ' x, w ≠ [] ∧ byteLen w < n)
    (hn : 0 < n) : FoldingKeeps n s := by
  refine folded_roundtrip ⟨hnl, ?_, ?_⟩
  · intro x hx
    unfold LineFoldable
    have := hw x hx
    by_cases hxe : x = []
    · subst hxe; simp [splitChar, byteLen, BreaksAtWords, hn]
    · replace this := this hxe
      revert this
      cases splitChar ' ' x with
      | nil => intro _; trivial
      | cons w ws =>
        intro h
        refine ⟨(h w (by simp)).2, ?_⟩
        have h' : ∀ v ∈ ws, v ≠ [] := fun v hv => (h v (by simp [hv])).1
        clear h
        generalize byteLen w = k
        induction ws generalizing k with
        | nil => trivial
        | cons v vs ih =>
          simp only [BreaksAtWords]
          have := ih (fun u hu => h' u (by simp [hu]))
          split
          · exact ⟨h' v (by simp), this _⟩
          · exact this _
  · intro x hx
    have := hw x (List.mem_of_mem_tail hx)
    cases x with
    | nil => rfl
    | cons a as =>
      simp only [startsWithChar, List.head?_cons, beq_eq_false_iff_ne, ne_eq, Option.some.injEq]
      rintro rfl
      exact (this (by simp) [] (by rw [splitChar_cons_sep]; simp)).1 rfl

/-- A string of three lines, one of them empty, that is wrapped at 12 bytes. -/
example : Foldable 12 c!"some words here\n\nand more of them\n" ∧
    createFolded c!"some words here\n\nand more of them\n" 12 =
      [c!"some words", c!"here", c!"", c!"", c!"and more of", c!"them"] := by
  refine ⟨⟨rfl, ?_, ?_⟩, rfl⟩ <;> simp [splitChar, LineFoldable, BreaksAtWords, byteLen, startsWithChar] <;> decide

/-- The class also contains lines with runs of spaces that are not broken there. -/
example : Foldable 12 c!"a  b c" := by
  refine ⟨rfl, ?_, ?_⟩ <;> simp [splitChar, LineFoldable, BreaksAtWords, byteLen, startsWithChar] <;> decide

/-- **C02** Strings that do not survive, for the line length of the crate (90): a lone newline, a leading
newline, a line (not the first) that starts with a space, a first word of 90 bytes, a space at the end of a line where the
line is broken, and two spaces where the line is broken. -/
theorem C02_folded_counterexamples :
    ¬ FoldingKeeps 90 c!"\n" ∧ ¬ FoldingKeeps 90 c!"\nb" ∧ ¬ FoldingKeeps 90 c!"a\n b\nc" ∧
    ¬ FoldingKeeps 90 (List.replicate 90 'a') ∧
    ¬ FoldingKeeps 90 (List.replicate 88 'a' ++ c!" b ") ∧
    ¬ FoldingKeeps 90 (List.replicate 88 'a' ++ c!" b  c") := by
  unfold FoldingKeeps
  refine ⟨?_, ?_, ?_, ?_, ?_, ?_⟩ <;> decide +kernel

/-! ## C03 -/

/-- Removing all newlines at the end. -/
def IsStripped (body value : Str) : Prop :=
  endsWithChar value '\n' = false ∧ ∃ k, body = value ++ List.replicate k '\n'

/-- **C03** literal style: with Keep the value is the lines, each followed by a newline. -/
theorem C03_literal_keep (l : Str) (ls : List Str) :
    parseLiteral (l :: ls) .keep = (l :: ls).flatMap (fun x => x ++ ['\n']) := by
  simp only [parseLiteral, handleEndingNewlines, joinLines_flatMap]

/-- **C03** literal style: with Strip the value is the same text without the newlines at the end. -/
theorem C03_literal_strip (l : Str) (ls : List Str) :
    IsStripped ((l :: ls).flatMap (fun x => x ++ ['\n'])) (parseLiteral (l :: ls) .strip) := by
  simp only [parseLiteral, handleEndingNewlines, ← joinLines_flatMap]
  obtain ⟨h1, k, h2⟩ := trimEndMatches_spec (joinLines (l :: ls)) '\n'
  refine ⟨h1, k + 1, ?_⟩
  conv => lhs; rw [h2]
  simp [List.replicate_succ']

/-- **C03** literal style: with Clip the value is that of Strip and one newline. -/
theorem C03_literal_clip (ls : List Str) :
    parseLiteral ls .clip = parseLiteral ls .strip ++ ['\n'] := rfl

/-- **C03** folded style: with Strip the value is that of Keep without the newlines at the end. -/
theorem C03_folded_strip (l : Str) (ls : List Str) :
    IsStripped (parseFolded (l :: ls) .keep) (parseFolded (l :: ls) .strip) := by
  simp only [parseFolded_eq, handleEndingNewlines]
  obtain ⟨h1, k, h2⟩ := trimEndMatches_spec (foldedContent (l :: ls)) '\n'
  refine ⟨h1, k + 1, ?_⟩
  conv => lhs; rw [h2]
  simp [List.replicate_succ']

/-- **C03** folded style: with Clip the value is that of Strip and one newline. -/
theorem C03_folded_clip (l : Str) (ls : List Str) :
    parseFolded (l :: ls) .clip = parseFolded (l :: ls) .strip ++ ['\n'] := rfl

/-- **C03** folded style: with Keep, lines that are neither empty nor more indented are joined by
spaces and followed by one newline. -/
theorem C03_folded_keep_plain (l : Str) (ls : List Str)
    (h : ∀ x ∈ ls, x ≠ [] ∧ startsWithChar x ' ' = false) :
    parseFolded (l :: ls) .keep = l ++ ls.flatMap (fun x => ' ' :: x) ++ ['\n'] := by
  have hj : ∀ (ls : List Str) (l : Str),
      ls.foldl (fun acc w => acc ++ ' ' :: w) l = l ++ ls.flatMap (fun x => ' ' :: x) := by
    intro ls
    induction ls with
    | nil => simp
    | cons m ms ih => intro l; rw [List.foldl_cons, ih]; simp
  simp only [parseFolded_eq, handleEndingNewlines, foldedContent, parseFolded_pieces ls h, hj]

/-- **C03** folded style: with Keep, an empty line after the first line is a newline. -/
theorem C03_folded_keep_blank (l : Str) (ls : List Str) :
    parseFolded (l :: ls ++ [[]]) .keep = parseFolded (l :: ls) .keep ++ ['\n'] := by
  rw [List.cons_append, parseFolded_eq, parseFolded_eq, ← List.cons_append,
    foldedContent_append_nil]; rfl

example : parseLiteral [c!"a", c!"b", c!"", c!""] .strip = c!"a\nb" ∧
    parseLiteral [c!"a", c!"b", c!"", c!""] .clip = c!"a\nb\n" ∧
    parseLiteral [c!"a", c!"b", c!"", c!""] .keep = c!"a\nb\n\n\n" := ⟨rfl, rfl, rfl⟩

example : parseFolded [c!"a", c!"b", c!"", c!"c"] .keep = c!"a b\nc\n" := rfl

/-- "Exactly one newline when there is any content" does not extend to a block with no content: the value of a clipped
literal block of no or only empty lines is one newline (in YAML it would be the empty
string). -/
theorem C03_clip_empty_counterexample :
    parseLiteral [] .clip = ['\n'] ∧ parseLiteral [[], []] .clip = ['\n'] ∧ parseFolded [] .clip = [] :=
  ⟨rfl, rfl, rfl⟩

/-! ## C04 -/

theorem strToSQPartsAux_format (s : Str) (parts : List SQPart) (buf : Str) :
    (strToSQPartsAux parts buf s).flatMap SQPart.format =
      parts.flatMap SQPart.format ++ buf ++ s.flatMap (fun c => if c = '\'' then ['\'', '\''] else [c]) := by
  induction s generalizing parts buf with
  | nil => cases buf <;> simp [strToSQPartsAux, SQPart.format]
  | cons x xs ih =>
    simp only [strToSQPartsAux]
    by_cases h : x = '\''
    · rw [if_pos h, ih]
      cases buf <;> simp [h, SQPart.format, SQEscapedChar.char]
    · rw [if_neg h, ih]; simp [h]

theorem readSingleQuoted_doubled (s rest : Str) (h : startsWithChar rest '\'' = false) :
    readSingleQuoted (s.flatMap (fun c => if c = '\'' then ['\'', '\''] else [c]) ++ '\'' :: rest) =
      some (s, rest) := by
  induction s with
  | nil =>
    cases rest with
    | nil => rfl
    | cons a as =>
      have ha : a ≠ '\'' := by rintro rfl; simp [startsWithChar] at h
      simp only [List.flatMap_nil, List.nil_append]
      rw [readSingleQuoted]
      intro t ht; simp at ht; exact ha ht.1
  | cons x xs ih =>
    by_cases hx : x = '\''
    · subst hx
      simp only [List.flatMap_cons, if_true, List.cons_append, List.nil_append]
      rw [readSingleQuoted, ih]; rfl
    · simp only [List.flatMap_cons, hx, if_false, List.cons_append, List.nil_append]
      rw [readSingleQuoted, ih]
      · rfl
      · intro t ht _; exact hx ht
      · exact hx

/-- **C04** Requoting keeps the string value. -/
theorem C04_requote_value (s : Str) : parseSingleQuoted (strToSingleQuotedParts s) = s := by
  rw [strToSingleQuotedParts, strToSQPartsAux_value]; rfl

/-- **C04** The text written for the requoted scalar is one single-quoted scalar that denotes the string: a
reader finds the closing quote where it was written. -/
theorem C04_requote_text (s rest : Str) (h : startsWithChar rest '\'' = false) :
    ∃ t, Yaml.format 0 none (.singleQuotedString (strToSingleQuotedParts s)) ++ rest = c!" '" ++ t ∧
      readSingleQuoted t = some (s, rest) := by
  refine ⟨_, ?_, readSingleQuoted_doubled s rest h⟩
  simp [Yaml.format, strToSingleQuotedParts, strToSQPartsAux_format]

example : strToSingleQuotedParts c!"it's, ''x" =
    [.string c!"it", .escapedChar .singleQuote, .string c!"s, ", .escapedChar .singleQuote,
      .escapedChar .singleQuote, .string c!"x"] ∧ startsWithChar c!", b ]" '\'' = false := ⟨rfl, rfl⟩

/-! ## C05 -/

/-- **C05** The node made for a string denotes that string. -/
theorem C05_serialized_string_value (s : Str) : (strToYaml s).asString = some s := by
  unfold strToYaml
  split
  · rfl
  · split
    · split
      · rw [Yaml.asString, dqBackslashLoop_value]; rfl
      · rw [Yaml.asString, sqQuoteLoop_eq, strToSQPartsAux_value]; rfl
    · rw [Yaml.asString, dqNewlineLoop_value]; rfl

/-- All four styles occur. -/
example : strToYaml c!"plain text" = .unquotedString c!"plain text" ∧
    strToYaml c!"12" = .singleQuotedString [.string c!"12"] ∧
    strToYaml c!"# it's" = .doubleQuotedString [.string c!"# it's"] ∧
    strToYaml c!"a\n\"" = .doubleQuotedString [.string c!"a", .escapedChar .newline,
      .escapedChar .quote] := ⟨rfl, rfl, rfl, rfl⟩

end YamlSubset
