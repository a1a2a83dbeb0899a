import Verif.Lemmas.OneLine
import Verif.Lemmas.KernelRfl
import Verif.Lemmas.BlockPanic

/-! # How large the formatted text of a document can be (C68) -/

namespace YamlSubset

open Peg Spec

theorem byteLen_leading (cs : List Str) : byteLen (cs.flatMap fun c => '#' :: (c ++ ['\n'])) ≤ 3 * linesW cs := by
  induction cs with
  | nil => exact Nat.le_refl _
  | cons c cs ih =>
    simp only [List.flatMap_cons, byteLen_append, byteLen, size_chars, linesW_cons, lineW]
    omega

theorem byteLen_comments (cs : List Str) : byteLen ((cs.map DocumentData.comment).flatMap DocumentData.format) ≤ 3 * linesW cs := by
  induction cs with
  | nil => exact Nat.le_refl _
  | cons c cs ih =>
    simp only [List.map_cons, List.flatMap_cons, DocumentData.format, List.cons_append, List.nil_append, byteLen_append, byteLen, size_chars, linesW_cons, lineW]
    omega

theorem document_size {T : CharTables} {s : Str} {d : Document} (h : parseYamlFile T s = .ok d) {y : Yaml} (hy : .yaml y ∈ d.items) :
    ∃ c, bulk y + c + 3 ≤ byteLen s ∧ byteLen d.format ≤ 3 * c + 3 + 5 * bulk y + bulk y * (2 * nesting y) := by
  have hw := parsed_weight h
  obtain ⟨_, pre, post, root, hd, _⟩ := C39_parsed_well_formed h
  obtain ⟨leading, items⟩ := d
  change items = _ at hd
  subst hd
  have : y = root := by simpa using hy
  subst this
  have h1 := byteLen_leading leading
  have h2 := byteLen_comments pre
  have h3 := byteLen_comments post
  have h4 := format_size 0 none y
  simp only [Nat.zero_add] at h4
  simp only [docW, List.map_append, List.sum_append, itemW_comments, List.map_cons, List.map_nil, List.sum_cons, List.sum_nil, itemW] at hw
  refine ⟨linesW leading + linesW pre + linesW post, by omega, ?_⟩
  have h5 : byteLen c!"---" = 3 := rfl
  simp only [Document.format, byteLen_append, List.flatMap_append, List.flatMap_cons, List.flatMap_nil, List.append_nil, DocumentData.format, h5]
  omega

/-- **C68** The formatted text has at most five bytes for every byte of the text that was parsed, and two more for every level of nested block
collections. -/
theorem C68_format_size {T : CharTables} {s : Str} {d : Document} (h : parseYamlFile T s = .ok d) {y : Yaml} (hy : .yaml y ∈ d.items) :
    utf8Length d.format ≤ (5 + 2 * nesting y) * utf8Length s := by
  obtain ⟨c, h1, h2⟩ := document_size h hy
  rw [← byteLen_eq, ← byteLen_eq]
  have h3 : bulk y * (2 * nesting y) ≤ byteLen s * (2 * nesting y) := Nat.mul_le_mul_right _ (by omega)
  rw [Nat.add_mul, Nat.mul_comm (2 * nesting y)]
  omega

/-- **C68** The formatted text has at most twice the square of the bytes of the text that was parsed. -/
theorem C68_format_square {T : CharTables} {s : Str} {d : Document} (h : parseYamlFile T s = .ok d) :
    utf8Length d.format ≤ 2 * utf8Length s ^ 2 := by
  obtain ⟨_, pre, post, root, hd, _⟩ := C39_parsed_well_formed h
  obtain ⟨c, h1, h2⟩ := document_size h (y := root) (by rw [hd]; simp)
  rw [← byteLen_eq, ← byteLen_eq]
  have h3 := nesting_le root
  have h4 : bulk root * (2 * nesting root) ≤ bulk root * (2 * bulk root) := Nat.mul_le_mul_left _ (by omega)
  have h5 : (bulk root + c + 3) ^ 2 ≤ byteLen s ^ 2 := Nat.pow_le_pow_left h1 2
  have h6 : (bulk root + c + 3) ^ 2 = bulk root * bulk root + c * c + 2 * (bulk root * c) + 6 * bulk root + 6 * c + 9 := by grind
  have h7 : bulk root * (2 * bulk root) = 2 * (bulk root * bulk root) := by grind
  omega

/-- **C68** The nesting of a parsed document is bounded by its text. -/
theorem C68_nesting {T : CharTables} {s : Str} {d : Document} (h : parseYamlFile T s = .ok d) {y : Yaml} (hy : .yaml y ∈ d.items) :
    nesting y + 3 ≤ utf8Length s := by
  obtain ⟨c, h1, -⟩ := document_size h hy
  have := nesting_le y
  rw [← byteLen_eq]
  omega

/-- **C68** The square cannot be avoided: there are texts of `3 * n + 9` bytes whose formatted text has more than `n * n` bytes. -/
theorem C68_square_needed (T : CharTables) (n : Nat) :
    ∃ s d, parseYamlFile T s = .ok d ∧ utf8Length s = 3 * n + 9 ∧ n * n < utf8Length d.format := by
  refine ⟨_, _, Lay.chain_parses n, ?_, ?_⟩
  · rw [← byteLen_eq, byteLen_append, Lay.byteLen_keyLine]
    have : byteLen c!"---\n" = 4 := rfl
    omega
  · have h1 := Lay.chain_format_size (n + 1) 0 none (by simp)
    have h2 : n * n ≤ (n + 1) * (n + 1) := Nat.mul_le_mul (by omega) (by omega)
    rw [← byteLen_eq]
    simp only [Document.format, byteLen_append, List.flatMap_cons, List.flatMap_nil, List.append_nil, DocumentData.format]
    omega

/-! ## examples -/

/-- A text whose formatted text is longer: the mappings on one line are written on lines of their own. -/
theorem C68_example : ∃ d, parseYamlFile asciiTables c!"---\na: b: c: d: e" = .ok d ∧
    d.format = c!"---\na:\n  b:\n    c:\n      d: e" ∧ utf8Length d.format = 29 ∧ utf8Length c!"---\na: b: c: d: e" = 17 ∧
    ∀ y, .yaml y ∈ d.items → nesting y = 4 := by
  refine ⟨docOf (.hash [kv c!"a" (.hash [kv c!"b" (.hash [kv c!"c" (.hash [kv c!"d" (plain c!"e")])])])]), by kernel_rfl, by kernel_rfl, by decide +kernel, by decide +kernel, ?_⟩
  intro y hy
  simp only [docOf, List.mem_singleton, DocumentData.yaml.injEq] at hy
  subst hy
  decide +kernel

end YamlSubset
