import Verif.Lemmas.BreaksTree
import Verif.Lemmas.KernelRfl
import Verif.Props.Parse

/-! # C58: line endings -/

namespace YamlSubset

open Peg Spec

variable {T : CharTables}

mutual
theorem alike_calm {y y' : Yaml} : Alike y y' → Calm y' → y = y'
  | .same _, _ => rfl
  | .double h, hc => by
    cases hc with
    | double hc => obtain ⟨p, hp, h⟩ := h; exact absurd h (hc p hp)
  | .single h, hc => by
    cases hc with
    | single hc => obtain ⟨p, hp, h⟩ := h; exact absurd h (hc p hp)
  | .literal h, hc => by
    cases hc with
    | literal hc => rw [h.2 hc]
  | .folded h, hc => by
    cases hc with
    | folded hc => rw [h.2 hc]
  | .flowHash h, hc => by
    cases hc with
    | flowHash hc => rw [alike_entries h hc]
  | .flowArray h, hc => by
    cases hc with
    | flowArray hc => rw [alike_values h hc]
  | .hash h, hc => by
    cases hc with
    | hash hc => rw [alike_items h hc]
  | .array h, hc => by
    cases hc with
    | array hc => rw [alike_elements h hc]
theorem alike_entries {es es' : List (Str × Yaml)} : AlikeEntries es es' → (∀ k v, (k, v) ∈ es' → Calm v) → es = es'
  | .nil, _ => rfl
  | .cons hv h, hc => by
    rw [alike_calm hv (hc _ _ List.mem_cons_self), alike_entries h fun k v hm => hc k v (List.mem_cons_of_mem _ hm)]
theorem alike_values {es es' : List Yaml} : AlikeValues es es' → (∀ v ∈ es', Calm v) → es = es'
  | .nil, _ => rfl
  | .cons hv h, hc => by
    rw [alike_calm hv (hc _ List.mem_cons_self), alike_values h fun v hm => hc v (List.mem_cons_of_mem _ hm)]
theorem alike_items {ds ds' : List HashData} : AlikeItems ds ds' → (∀ k a v, HashData.element ⟨k, ⟨a, v⟩⟩ ∈ ds' → Calm v) → ds = ds'
  | .nil, _ => rfl
  | .comment h, hc => by rw [alike_items h fun k a v hm => hc k a v (List.mem_cons_of_mem _ hm)]
  | .inlineComment h, hc => by rw [alike_items h fun k a v hm => hc k a v (List.mem_cons_of_mem _ hm)]
  | .element hv h, hc => by
    rw [alike_calm hv (hc _ _ _ List.mem_cons_self), alike_items h fun k a v hm => hc k a v (List.mem_cons_of_mem _ hm)]
theorem alike_elements {ds ds' : List ArrayData} : AlikeElements ds ds' → (∀ a v, ArrayData.element ⟨a, v⟩ ∈ ds' → Calm v) → ds = ds'
  | .nil, _ => rfl
  | .comment h, hc => by rw [alike_elements h fun a v hm => hc a v (List.mem_cons_of_mem _ hm)]
  | .inlineComment h, hc => by rw [alike_elements h fun a v hm => hc a v (List.mem_cons_of_mem _ hm)]
  | .element hv h, hc => by
    rw [alike_calm hv (hc _ _ List.mem_cons_self), alike_elements h fun a v hm => hc a v (List.mem_cons_of_mem _ hm)]
end

theorem asDoc_rel {v v' : Val} (h : VRel v v') : SameOut (fun d d' => d = d' ∨ AlikeDocuments d d') v.asDoc v'.asDoc := by
  cases h with
  | doc h => exact .inr h
  | same v => exact (SameOut.eq _).mono fun a b h => .inl h
  | _ => trivial

theorem parse_rel {s : Str} (hs : NoBackslashBreak s) :
    SameOut (fun d d' => d = d' ∨ AlikeDocuments d d') (parseYamlFile T s) (parseYamlFile T (unixBreaks s)) := by
  have h := sim (T := T) (yamlFuel s) (e := .rule .yaml) (x := s) (k := []) (.rule rfl) hs (by simp)
  unfold parseYamlFile
  cases he : eval (yamlGrammar T) (yamlFuel s) (.rule .yaml) s [] with
  | fail =>
    have hn := h.2 he
    rw [(hn.eval_eq (yaml_eval_ne_oof T (unixBreaks s)))]
    trivial
  | panic => exact absurd he (yaml_eval_ne_panic T _ _)
  | oof => exact absurd he (yaml_eval_ne_oof T _)
  | ok ts rest k =>
    obtain ⟨ts', hy, hrel, -, -⟩ := h.1 _ _ _ he
    rw [(hy.eval_eq (yaml_eval_ne_oof T (unixBreaks s)))]
    cases hrel with
    | nil => trivial
    | cons h hs =>
      obtain ⟨us, hus, hw⟩ := yes_rule.1 (⟨_, he⟩ : Yes (yamlGrammar T) (.rule .yaml) s [] _ rest k)
      have hw' : wrap ((yamlGrammar T).kind .yaml) .yaml s rest us = [.node .yaml (consumed s rest) us] := rfl
      rw [hw'] at hw
      obtain ⟨rfl, rfl⟩ := List.cons.inj hw
      cases hs
      exact (sem_rel h).bind fun v v' hv => asDoc_rel hv

/-- **C58.** Replacing every line break of a text by a line feed changes neither whether the text is accepted nor whether
parsing it panics. If it is accepted, the two documents have the same comments, keys, anchors, references, plain scalars and
shape. They may differ only in quoted scalars that contain line breaks and in the number of empty lines of block scalars. -/
theorem C58_line_endings {s : Str} (hs : NoBackslashBreak s) :
    (parseYamlFile T s = .err ∧ parseYamlFile T (unixBreaks s) = .err) ∨
    (parseYamlFile T s = .panic ∧ parseYamlFile T (unixBreaks s) = .panic) ∨
    ∃ d d', parseYamlFile T s = .ok d ∧ parseYamlFile T (unixBreaks s) = .ok d' ∧ AlikeDocuments d d' := by
  have h := parse_rel (T := T) hs
  rcases parse_fine T s with h1 | ⟨h1, -⟩ | ⟨d, h1, hd⟩
  · rw [h1] at h
    cases h2 : parseYamlFile T (unixBreaks s) <;> rw [h2] at h <;> first | exact h.elim | exact .inl ⟨h1, rfl⟩
  · rw [h1] at h
    cases h2 : parseYamlFile T (unixBreaks s) <;> rw [h2] at h <;> first | exact h.elim | exact .inr (.inl ⟨h1, rfl⟩)
  · rw [h1] at h
    cases h2 : parseYamlFile T (unixBreaks s) <;> rw [h2] at h <;> first | exact h.elim | skip
    refine .inr (.inr ⟨_, _, h1, rfl, ?_⟩)
    rcases h with rfl | h
    · obtain ⟨leading, items⟩ := d
      obtain ⟨-, pre, post, root, hi, -⟩ := hd
      simp only at hi
      subst hi
      exact .mk (.same root)
    · exact h

/-- **C58.** If in the document of the text with line feeds no quoted scalar contains a line break and no block scalar an
empty line, then the text itself parses to the very same document. -/
theorem C58_same_document {s : Str} {d : Document} (hs : NoBackslashBreak s) (h : parseYamlFile T (unixBreaks s) = .ok d)
    (hc : CalmDocument d) : parseYamlFile T s = .ok d := by
  rcases C58_line_endings (T := T) hs with ⟨-, h2⟩ | ⟨-, h2⟩ | ⟨d₁, d₂, h1, h2, ha⟩
  · rw [h] at h2; cases h2
  · rw [h] at h2; cases h2
  · rw [h] at h2
    cases h2
    rw [h1]
    cases ha with
    | mk ha => rw [alike_calm ha (hc _ (by simp))]

theorem windows_unix {t : Str} (h : '\r' ∉ t) : unixBreaks (windowsBreaks t) = t := by
  induction t with
  | nil => rfl
  | cons c t ih =>
    simp only [List.mem_cons, not_or] at h
    by_cases hc : c = '\n'
    · subst hc
      rw [windowsBreaks, if_pos rfl, ub_crlf, ih h.2]
    · rw [windowsBreaks, if_neg hc, ub_cons (Ne.symm h.1), ih h.2]

theorem windows_cons {t b : Str} {c : Char} (h : windowsBreaks t = c :: b) :
    ∃ c' t', t = c' :: t' ∧ ((c = '\r' ∧ c' = '\n') ∨ (c = c' ∧ b = windowsBreaks t')) := by
  cases t with
  | nil => cases h
  | cons x t =>
    refine ⟨x, t, rfl, ?_⟩
    by_cases hx : x = '\n'
    · subst hx
      rw [windowsBreaks, if_pos rfl] at h
      exact .inl ⟨(List.cons.inj h).1.symm, rfl⟩
    · rw [windowsBreaks, if_neg hx] at h
      exact .inr ⟨(List.cons.inj h).1.symm, (List.cons.inj h).2.symm⟩

theorem windows_nbb {t : Str} (h : NoBackslashBreak t) : NoBackslashBreak (windowsBreaks t) := by
  induction t with
  | nil => intro a c b h; cases a <;> cases h
  | cons x t ih =>
    have ht := ih (nbb_tail h)
    intro a c b e
    by_cases hx : x = '\n'
    · subst hx
      rw [windowsBreaks, if_pos rfl] at e
      cases a with
      | nil => cases e
      | cons y a =>
        cases a with
        | nil => cases e
        | cons z a => exact ht a c b (List.cons.inj (List.cons.inj e).2).2
    · rw [windowsBreaks, if_neg hx] at e
      cases a with
      | cons y a => exact ht a c b (List.cons.inj e).2
      | nil =>
        obtain ⟨rfl, e'⟩ := List.cons.inj e
        obtain ⟨c', t', rfl, h' | h'⟩ := windows_cons e'
        · exact absurd h'.2 (h [] c' t' rfl).1
        · rw [h'.1]; exact h [] c' t' rfl

/-- **C58.** Writing a file with Windows line endings does not change its document: if a text without carriage returns parses
to a document without line breaks in quoted scalars and without empty lines in block scalars, the text with a carriage return
before each line feed parses to the same document. -/
theorem C58_windows {t : Str} {d : Document} (hr : '\r' ∉ t) (hs : NoBackslashBreak t) (h : parseYamlFile T t = .ok d)
    (hc : CalmDocument d) : parseYamlFile T (windowsBreaks t) = .ok d := by
  refine C58_same_document (windows_nbb hs) ?_ hc
  rw [windows_unix hr]
  exact h

/-- **C58.** A text without carriage returns is accepted if and only if it is accepted with Windows line endings. -/
theorem C58_windows_accepted {t : Str} (hr : '\r' ∉ t) (hs : NoBackslashBreak t) :
    (∃ d, parseYamlFile T (windowsBreaks t) = .ok d) ↔ ∃ d, parseYamlFile T t = .ok d := by
  have h := C58_line_endings (T := T) (windows_nbb hs)
  rw [windows_unix hr] at h
  rcases h with ⟨h1, h2⟩ | ⟨h1, h2⟩ | ⟨d₁, d₂, h1, h2, -⟩ <;> rw [h1, h2] <;> simp

/-! ## examples -/

/-- A text with nested collections, comments, an anchor, quoted, flow and block scalars. -/
def lineEndingsExample : Str :=
  c!"# top\n---\n# first\na: &x 'q' # note\nb:\n  - [1, \"two\"]\n  - |\n    one\n     two\nc: *x\n"

/-- Its document. -/
def lineEndingsDocument : Document :=
  ⟨[c!" top"], [.comment c!" first", .yaml (.hash [
    .element ⟨c!"a", ⟨some c!"x", .singleQuotedString [.string c!"q"]⟩⟩, .inlineComment c!" note",
    .element ⟨c!"b", ⟨none, .array [
      .element ⟨none, .inlineArray [.unquotedString c!"1", .doubleQuotedString [.string c!"two"]]⟩,
      .element ⟨none, .literalString [c!"one", c!" two"] .clip⟩]⟩⟩,
    .element ⟨c!"c", ⟨none, .anchor c!"x"⟩⟩])]⟩

theorem nbb_of_no_backslash {s : Str} (h : '\\' ∉ s) : NoBackslashBreak s := by
  rintro a c b rfl
  exact absurd (by simp) h

theorem lineEndings_nbb : NoBackslashBreak lineEndingsExample := nbb_of_no_backslash (by decide)

theorem lineEndings_calm : CalmDocument lineEndingsDocument := by
  intro y hy
  simp only [lineEndingsDocument, List.mem_cons, List.not_mem_nil, or_false, reduceCtorEq, false_or, DocumentData.yaml.injEq] at hy
  subst hy
  refine .hash ?_
  intro k a v hm
  simp only [List.mem_cons, List.not_mem_nil, or_false, reduceCtorEq, false_or, HashData.element.injEq, HashElement.mk.injEq,
    AliasedYaml.mk.injEq] at hm
  rcases hm with ⟨rfl, rfl, rfl⟩ | ⟨rfl, rfl, rfl⟩ | ⟨rfl, rfl, rfl⟩
  · exact .single (by simp [SQBreak])
  · refine .array ?_
    intro a v hm
    simp only [List.mem_cons, List.not_mem_nil, or_false, ArrayData.element.injEq, AliasedYaml.mk.injEq] at hm
    rcases hm with ⟨rfl, rfl⟩ | ⟨rfl, rfl⟩
    · refine .flowArray ?_
      intro v hm
      simp only [List.mem_cons, List.not_mem_nil, or_false] at hm
      rcases hm with rfl | rfl
      · exact .plain
      · exact .double (by simp [DQBreak])
    · exact .literal (by decide)
  · exact .reference

theorem lineEndings_parse : parseYamlFile asciiTables lineEndingsExample = .ok lineEndingsDocument := by kernel_rfl

/-- The hypotheses of C58 are met by a text with Windows line endings that is accepted, and by one that is not. -/
theorem C58_example : parseYamlFile asciiTables (windowsBreaks lineEndingsExample) = .ok lineEndingsDocument ∧
    NoBackslashBreak c!"---\r\na: 1\r\n- b\r\n" ∧ parseYamlFile asciiTables c!"---\r\na: 1\r\n- b\r\n" = .err :=
  ⟨C58_windows (by decide) lineEndings_nbb lineEndings_parse lineEndings_calm, nbb_of_no_backslash (by decide), by kernel_rfl⟩

/-- A carriage return alone ends a line, too. -/
theorem C58_example_return : parseYamlFile asciiTables c!"# c\r---\ra: 1\rb:\r  - x\r" =
    .ok ⟨[c!" c"], [.yaml (.hash [.element ⟨c!"a", ⟨none, .unquotedString c!"1"⟩⟩,
      .element ⟨c!"b", ⟨none, .array [.element ⟨none, .unquotedString c!"x"⟩]⟩⟩])]⟩ := by kernel_rfl

/-- The documents are not always the same. With Windows line endings a block scalar gets two empty lines for one, and a quoted
scalar keeps the carriage returns. -/
theorem C58_not_the_same :
    parseYamlFile asciiTables c!"---\na: |\n  x\n\n  y\n" =
      .ok ⟨[], [.yaml (.hash [.element ⟨c!"a", ⟨none, .literalString [c!"x", [], c!"y"] .clip⟩⟩])]⟩ ∧
    parseYamlFile asciiTables c!"---\r\na: |\r\n  x\r\n\r\n  y\r\n" =
      .ok ⟨[], [.yaml (.hash [.element ⟨c!"a", ⟨none, .literalString [c!"x", [], [], c!"y"] .clip⟩⟩])]⟩ ∧
    parseYamlFile asciiTables c!"---\na: \"x\n  y\"\n" =
      .ok ⟨[], [.yaml (.hash [.element ⟨c!"a", ⟨none, .doubleQuotedString [.string c!"x", .removableNewline, .string c!"  y"]⟩⟩])]⟩ ∧
    parseYamlFile asciiTables c!"---\r\na: \"x\r\n  y\"\r\n" =
      .ok ⟨[], [.yaml (.hash [.element ⟨c!"a", ⟨none, .doubleQuotedString [.string c!"x\r", .removableNewline, .string c!"  y"]⟩⟩])]⟩ := by
  refine ⟨?_, ?_, ?_, ?_⟩ <;> kernel_rfl

/-- A line that ends with a backslash, inside a double quoted scalar, is accepted with a line feed only. -/
theorem C58_backslash :
    parseYamlFile asciiTables c!"---\na: \"x\\\n  y\"\n" =
      .ok ⟨[], [.yaml (.hash [.element ⟨c!"a", ⟨none,
        .doubleQuotedString [.string c!"x", .escapedChar .realNewline, .string c!"  y"]⟩⟩])]⟩ ∧
    parseYamlFile asciiTables c!"---\r\na: \"x\\\r\n  y\"\r\n" = .err := by
  refine ⟨?_, ?_⟩ <;> kernel_rfl

end YamlSubset
