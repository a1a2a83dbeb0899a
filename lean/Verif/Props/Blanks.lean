import Verif.Props.Written
import Verif.Props.Visible
import Verif.Lemmas.KernelRfl

/-! # C53: which characters are blanks -/

namespace YamlSubset
open Spec

theorem char_eq_toNat (c d : Char) : c = d ↔ c.toNat = d.toNat := ⟨fun h => h ▸ rfl, fun h => Char.toNat_inj.1 h⟩

/-- The blanks of the grammar are the 17 characters of the Unicode category Zs. -/
theorem spaceSeparator_mem (c : Char) : isSpaceSeparator c = true ↔ c ∈ spaceSeparators := by
  simp only [isSpaceSeparator, spaceSeparators, List.mem_cons, List.not_mem_nil, or_false, char_eq_toNat c, Bool.or_eq_true, Bool.and_eq_true, beq_iff_eq,
    decide_eq_true_eq, Char.reduceToNat]
  omega

theorem whitespace_mem {c : Char} (h : isWhitespace c = true) :
    c ∈ spaceSeparators ∨ c ∈ ['\n', '\r'] ∨ c ∈ ['\t', '\u000B', '\u000C', '\u0085', '\u2028', '\u2029'] := by
  simp only [isWhitespace, spaceSeparators, List.mem_cons, List.not_mem_nil, or_false, char_eq_toNat c, Bool.or_eq_true, Bool.and_eq_true, beq_iff_eq,
    decide_eq_true_eq, Char.reduceToNat] at *
  omega

/-- **C53** Exactly the 17 Unicode space separators and the line breaks can stand between a key and its value: with another character after the colon the text is not
read as that key with that value. -/
theorem C53_space_separators (c : Char) :
    parseYamlFile asciiTables (c!"---\nk:" ++ c :: c!"v") = .ok (docOf (.hash [kv c!"k" (plain c!"v")])) ↔ c ∈ spaceSeparators ∨ c = '\n' ∨ c = '\r' := by
  constructor
  · intro h
    have hv := C54_only_white_space h (by
      intro y hy
      simp only [docOf, List.mem_singleton, DocumentData.yaml.injEq] at hy
      subst hy
      refine .hash fun k a v he => ?_
      simp only [kv, plain, List.mem_singleton, HashData.element.injEq, HashElement.mk.injEq, AliasedYaml.mk.injEq] at he
      obtain ⟨-, -, rfl⟩ := he
      exact .plain)
    have hw : isWhitespace c = true := by
      cases hc : isWhitespace c with
      | true => rfl
      | false =>
        exfalso
        have : (visible (c!"---\nk:" ++ c :: c!"v")).length = 7 := by
          simp only [visible, List.filter_append, List.filter_cons, hc, List.length_append]
          rfl
        rw [← hv] at this
        revert this
        decide +kernel
    rcases whitespace_mem hw with hm | hm | hm
    · exact .inl hm
    · exact .inr (by simpa using hm)
    · exfalso
      revert h
      simp only [List.mem_cons, List.not_mem_nil, or_false] at hm
      rcases hm with rfl | rfl | rfl | rfl | rfl | rfl <;> exact fun h => absurd (show (match parseYamlFile asciiTables _ with | .ok _ => true | _ => false) = true from by rw [h]) (by decide +kernel)
  · intro h
    have : ∀ d ∈ spaceSeparators ++ ['\n', '\r'], parseYamlFile asciiTables (c!"---\nk:" ++ d :: c!"v") = .ok (docOf (.hash [kv c!"k" (plain c!"v")])) := by
      simp only [spaceSeparators, List.cons_append, List.nil_append, List.mem_cons, List.not_mem_nil, or_false]
      rintro d (rfl | rfl | rfl | rfl | rfl | rfl | rfl | rfl | rfl | rfl | rfl | rfl | rfl | rfl | rfl | rfl | rfl | rfl | rfl) <;> kernel_rfl
    exact this c (by simpa using h)

end YamlSubset
