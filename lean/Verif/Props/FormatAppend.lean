import Verif.Props.FormatText

/-! # C79: elements written after a formatted document whose root is a sequence -/

namespace YamlSubset
open Spec

variable {T : CharTables}

namespace Fmt

/-- The formatted text and a line break, as the lines of a sequence. -/
theorem sequence_lines {leading pre post : List Str} {ds : List ArrayData} (h : ReadableDocument T ⟨leading, pre.map .comment ++ [.yaml (.array ds)] ++ post.map .comment⟩)
    (hc : ∀ z, InBlock z (.array ds) → Commentable z) :
    SequenceLines T leading pre 0 ds post (Document.format ⟨leading, pre.map .comment ++ [.yaml (.array ds)] ++ post.map .comment⟩ ++ ['\n']) := by
  obtain ⟨hlead, pre', post', root, hi, hcs, hroot⟩ := h
  simp only at hi hlead
  have hsame : pre' = pre ∧ root = .array ds ∧ post' = post := by
    clear hcs
    induction pre generalizing pre' with
    | nil =>
      cases pre' with
      | nil =>
        simp at hi
        exact ⟨rfl, hi.1.symm, ((List.map_inj_right (fun _ _ h => by simpa using h)).1 hi.2).symm⟩
      | cons c t => simp at hi
    | cons c t ih =>
      cases pre' with
      | nil => simp at hi
      | cons c' t' =>
        simp only [List.map_cons, List.cons_append, List.cons.injEq, DocumentData.comment.injEq] at hi
        obtain ⟨rfl, hi⟩ := hi
        obtain ⟨rfl, h⟩ := ih t' hi
        exact ⟨rfl, h⟩
  obtain ⟨rfl, rfl, rfl⟩ := hsame
  clear hi
  obtain ⟨cl, x, h1, h2, h3⟩ := root_shown hroot hc
  cases h2 with
  | @array _ _ _ x h2 =>
    have hl : LeadingText leading (leading.flatMap fun l => pad 0 ++ '#' :: (l ++ ['\n'])) := by
      by_cases h0 : leading = []
      · subst h0; exact .nil
      · exact .comments (b := []) .nil h0 (comment_lines 0 hlead)
    have := SequenceLines.intro (.intro (n := 0) (nl := ['\n']) (b := []) hl (.inl rfl) .nil (comment_lines 0 (cs := pre') fun l hm => hcs l (by simp [hm]))) h2
      (gap_lines cl 0 (cs := post') fun l hm => hcs l (by simp [hm]))
    have he := pre_shown pre' (x ++ (post'.flatMap fun l => ['\n', '#'] ++ l) ++ ['\n'])
    have he' := pre_shown post' []
    have hf : ∀ l : List Str, (l.map DocumentData.comment).flatMap DocumentData.format = l.flatMap fun l => ['\n', '#'] ++ l := by
      intro l
      simp [List.flatMap_map, DocumentData.format]
    rw [Document.format]
    simp only [List.flatMap_append, hf, List.flatMap_cons, List.flatMap_nil, DocumentData.format, h3]
    simp only [pad, List.replicate_zero, List.append_assoc, List.cons_append, List.nil_append, List.append_nil] at he he' this ⊢
    rw [he, he']
    exact this

end Fmt

/-- **C79** Further elements can be written after a formatted document whose root is a sequence, at the margin of the next line, unless the
last value is a sequence in a sequence with one element, which takes the lines with a dash after it. -/
theorem C79_append_elements (T : CharTables) {leading pre post : List Str} {ds : List ArrayData} {cl ds' z post' tail}
    (h : ReadableDocument T ⟨leading, pre.map .comment ++ [.yaml (.array ds)] ++ post.map .comment⟩)
    (hc : ∀ s, InBlock (.unquotedString s) (.array ds) → s.getLast? ≠ some ':') (hd : ClosedElements ds)
    (hz : ElementTexts T (Written T) 0 .none cl ds' z) (ht : Tail cl 0 post' tail) :
    parseYamlFile T (Document.format ⟨leading, pre.map .comment ++ [.yaml (.array ds)] ++ post.map .comment⟩ ++ '\n' :: z ++ tail) =
      .ok ⟨leading, pre.map .comment ++ [.yaml (.array (ds ++ post.map .comment ++ ds'))] ++ post'.map .comment⟩ := by
  have := C73_append_elements T (Fmt.sequence_lines h fun z hz => by
    cases z with
    | unquotedString s => exact hc s hz
    | _ => trivial) hd hz ht
  simpa [pad] using this

/-! ## The hypotheses hold -/

/-- A formatted sequence of mappings, with a comment at its end, and a line added by hand. -/
example : Document.format ⟨[], [.yaml (.array [elem (.hash [kv c!"a" (plain c!"1")])]), .comment c!" end"]⟩ = c!"---\n- a: 1\n# end" ∧
    parseYamlFile asciiTables c!"---\n- a: 1\n# end\n- b\n" =
      .ok ⟨[], [.yaml (.array [elem (.hash [kv c!"a" (plain c!"1")]), .comment c!" end", elem (plain c!"b")])]⟩ := by
  have hf : Document.format ⟨[], ([] : List Str).map .comment ++ [.yaml (.array [elem (.hash [kv c!"a" (plain c!"1")])])] ++ [c!" end"].map .comment⟩ =
      c!"---\n- a: 1\n# end" := by decide +kernel
  refine ⟨hf, ?_⟩
  have := C79_append_elements asciiTables (leading := []) (pre := []) (post := [c!" end"]) (ds := [elem (.hash [kv c!"a" (plain c!"1")])])
    (ds' := [elem (plain c!"b")]) (z := c!"- b") (post' := []) (tail := c!"\n") ?_ ?_ ?_
    (.last (post := []) (.value (.scalar (.plain (n := 0)) (.plain (blockPlain_simple (by decide)) (by decide)))))
    (.lines (n := 0) (Gap.intro (n := 0) (.inl rfl) .nil .nil (by simp) (by simp [Closing.tight])) (by simp))
  · rw [hf] at this
    simpa using this
  · have h1 : KeyText asciiTables c!"a" := keyText_of (by decide)
    have h2 : BlockPlain asciiTables c!"1" := blockPlain_simple (by decide)
    exact ⟨by decide, [], [c!" end"], _, rfl, by decide, .array (.last no_name (.altOne (.inl rfl) (by simp) h1 no_name (.oneLine (.plain h2))))⟩
  · intro s hs
    simp [Fmt.inBlock_hash, Fmt.inBlock_array, Fmt.inBlock_leaf, and_assoc, kv, elem] at hs
    subst hs
    decide
  · intro pre v post hd he
    have hv : v = ⟨none, .hash [kv c!"a" (plain c!"1")]⟩ := by
      have hm : ArrayData.element v ∈ [elem (.hash [kv c!"a" (plain c!"1")])] := by rw [hd]; simp
      simpa [elem] using hm
    subst hv
    generalize he' : (⟨none, .hash [kv c!"a" (plain c!"1")]⟩ : AliasedYaml) = v at he
    cases he with
    | here h =>
      subst he'
      obtain ⟨w, -, post, h⟩ := h
      simp at h
    | @entry _ _ pre' k w post' h =>
      have hw : w = ⟨none, plain c!"1"⟩ := by
        simp only [AliasedYaml.mk.injEq, Yaml.hash.injEq] at he'
        have hm : HashData.element ⟨k, w⟩ ∈ [kv c!"a" (plain c!"1")] := by rw [he'.2]; simp
        simp [kv] at hm
        exact hm.2
      subst hw
      cases h with
      | here h =>
        obtain ⟨w, -, post, h⟩ := h
        simp [plain] at h
    | element h => simp at he'

/-- **C79** Without the condition on the last value the added line is read as a part of it. -/
theorem C79_counterexample_inner_sequence :
    Document.format (docOf (.array [elem (.array [elem (plain c!"a")])])) = c!"---\n- - a" ∧
    parseYamlFile asciiTables c!"---\n- - a" = .ok (docOf (.array [elem (.array [elem (plain c!"a")])])) ∧
    parseYamlFile asciiTables c!"---\n- - a\n- b" = .ok (docOf (.array [elem (.array [elem (plain c!"a"), elem (plain c!"b")])])) :=
  ⟨by decide +kernel, by kernel_rfl, by kernel_rfl⟩

end YamlSubset
