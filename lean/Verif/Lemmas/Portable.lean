import Verif.Spec.Portable
import Verif.Spec.De
import Verif.Props.De
import Verif.Props.RoundTrip

/-! # Serialized portable values are readable -/

namespace YamlSubset

open Spec

variable {T : CharTables}

/-! ## empty collections -/

mutual
theorem format_flowEmpty : (y : Yaml) → ∀ spaces parent, (flowEmpty y).format spaces parent = y.format spaces parent
  | .inlineHash es, _, _ => by
    have : (flowEmptyEntries es).isEmpty = es.isEmpty := by cases es with | nil => rfl | cons e t => rfl
    simp [flowEmpty, Yaml.format, format_flowEmptyEntries es, this]
  | .hash [], _, _ => rfl
  | .hash (d :: ds), s, p => by
    have := format_flowEmptyHash (d :: ds) s p true
    have he : (flowEmptyHash (d :: ds)).isEmpty = false := by
      match d with
      | .element ⟨k, ⟨a, v⟩⟩ => rfl
      | .comment c => rfl
      | .inlineComment c => rfl
    simp only [flowEmpty, Yaml.format, he, this, List.isEmpty_cons]
  | .inlineArray es, _, _ => by
    have : (flowEmptyYamls es).isEmpty = es.isEmpty := by cases es with | nil => rfl | cons e t => rfl
    simp [flowEmpty, Yaml.format, format_flowEmptyYamls es, this]
  | .array [], _, _ => rfl
  | .array (d :: ds), s, p => by
    have := format_flowEmptyArray (d :: ds) s p true
    have he : (flowEmptyArray (d :: ds)).isEmpty = false := by
      match d with
      | .element ⟨a, v⟩ => rfl
      | .comment c => rfl
      | .inlineComment c => rfl
    simp only [flowEmpty, Yaml.format, he, this, List.isEmpty_cons]
  | .singleQuotedString _, _, _ => rfl
  | .doubleQuotedString _, _, _ => rfl
  | .unquotedString _, _, _ => rfl
  | .foldedString _ _, _, _ => rfl
  | .literalString _ _, _, _ => rfl
  | .anchor _, _, _ => rfl
theorem format_flowEmptyEntries : (es : List (Str × Yaml)) → ∀ first, formatInlineEntries first (flowEmptyEntries es) = formatInlineEntries first es
  | [], _ => rfl
  | (k, v) :: t, first => by simp [flowEmptyEntries, formatInlineEntries, format_flowEmpty v, format_flowEmptyEntries t]
theorem format_flowEmptyHash : (ds : List HashData) → ∀ spaces parent first,
    formatHash spaces parent first (flowEmptyHash ds) = formatHash spaces parent first ds
  | [], _, _, _ => rfl
  | .element ⟨k, ⟨a, v⟩⟩ :: t, _, _, _ => by simp [flowEmptyHash, formatHash, format_flowEmpty v, format_flowEmptyHash t]
  | .comment c :: t, _, _, _ => by simp [flowEmptyHash, formatHash, format_flowEmptyHash t]
  | .inlineComment c :: t, _, _, _ => by simp [flowEmptyHash, formatHash, format_flowEmptyHash t]
theorem format_flowEmptyYamls : (es : List Yaml) → ∀ first, formatInlineElements first (flowEmptyYamls es) = formatInlineElements first es
  | [], _ => rfl
  | v :: t, first => by simp [flowEmptyYamls, formatInlineElements, format_flowEmpty v, format_flowEmptyYamls t]
theorem format_flowEmptyArray : (ds : List ArrayData) → ∀ spaces parent first,
    formatArray spaces parent first (flowEmptyArray ds) = formatArray spaces parent first ds
  | [], _, _, _ => rfl
  | .element ⟨a, v⟩ :: t, _, _, _ => by simp [flowEmptyArray, formatArray, format_flowEmpty v, format_flowEmptyArray t]
  | .comment c :: t, _, _, _ => by simp [flowEmptyArray, formatArray, format_flowEmptyArray t]
  | .inlineComment c :: t, _, _, _ => by simp [flowEmptyArray, formatArray, format_flowEmptyArray t]
end

theorem format_flowEmptyDocument (d : Document) : (flowEmptyDocument d).format = d.format := by
  obtain ⟨lead, items⟩ := d
  simp only [Document.format, flowEmptyDocument, List.append_cancel_left_eq]
  induction items with
  | nil => rfl
  | cons i t ih =>
    rw [List.map_cons, List.flatMap_cons, List.flatMap_cons, ih]
    cases i <;> simp [DocumentData.format, format_flowEmpty]

mutual
theorem view_flowEmpty : (y : Yaml) → viewOf (flowEmpty y) = viewOf y
  | .inlineHash es => by simp [flowEmpty, viewOf, view_flowEmptyEntries es]
  | .hash [] => rfl
  | .hash (d :: ds) => by
    have := view_flowEmptyHash (d :: ds)
    simp [flowEmpty, viewOf, this]
  | .inlineArray es => by simp [flowEmpty, viewOf, view_flowEmptyYamls es]
  | .array [] => rfl
  | .array (d :: ds) => by
    have := view_flowEmptyArray (d :: ds)
    simp [flowEmpty, viewOf, this]
  | .singleQuotedString _ => rfl
  | .doubleQuotedString _ => rfl
  | .unquotedString _ => rfl
  | .foldedString _ _ => rfl
  | .literalString _ _ => rfl
  | .anchor _ => rfl
theorem view_flowEmptyEntries : (es : List (Str × Yaml)) → entriesView (flowEmptyEntries es) = entriesView es
  | [] => rfl
  | (k, v) :: t => by simp [flowEmptyEntries, entriesView, view_flowEmpty v, view_flowEmptyEntries t]
theorem view_flowEmptyHash : (ds : List HashData) → hashView (flowEmptyHash ds) = hashView ds
  | [] => rfl
  | .element ⟨k, ⟨a, v⟩⟩ :: t => by simp [flowEmptyHash, hashView, view_flowEmpty v, view_flowEmptyHash t]
  | .comment _ :: t => by simp [flowEmptyHash, hashView, view_flowEmptyHash t]
  | .inlineComment _ :: t => by simp [flowEmptyHash, hashView, view_flowEmptyHash t]
theorem view_flowEmptyYamls : (es : List Yaml) → yamlsView (flowEmptyYamls es) = yamlsView es
  | [] => rfl
  | v :: t => by simp [flowEmptyYamls, yamlsView, view_flowEmpty v, view_flowEmptyYamls t]
theorem view_flowEmptyArray : (ds : List ArrayData) → arrayView (flowEmptyArray ds) = arrayView ds
  | [] => rfl
  | .element ⟨a, v⟩ :: t => by simp [flowEmptyArray, arrayView, view_flowEmpty v, view_flowEmptyArray t]
  | .comment _ :: t => by simp [flowEmptyArray, arrayView, view_flowEmptyArray t]
  | .inlineComment _ :: t => by simp [flowEmptyArray, arrayView, view_flowEmptyArray t]
end

/-! ## quoted texts -/

theorem sqChain_escape {ps : List SQPart} (h : SQChain ps) : SQChain (.escapedChar .singleQuote :: ps) := by
  cases ps with
  | nil => exact .one trivial
  | cons p ps => exact .cons trivial (by simp) (by simp) h

theorem dqChain_escape {ps : List DQPart} (c : DQEscapedChar) (h : DQChain ps) : DQChain (.escapedChar c :: ps) := by
  cases ps with
  | nil => exact .one trivial
  | cons p ps => exact .cons trivial (by simp) (by simp) h

theorem sqChain_text {s : Str} {c : SQEscapedChar} {ps : List SQPart} (hs : SQPartText (.string s)) (h : SQChain (.escapedChar c :: ps)) :
    SQChain (.string s :: .escapedChar c :: ps) := .cons hs (by simp) (by simp) h

theorem dqChain_text {s : Str} {c : DQEscapedChar} {ps : List DQPart} (hs : DQPartText (.string s)) (h : DQChain (.escapedChar c :: ps)) :
    DQChain (.string s :: .escapedChar c :: ps) := .cons hs (by simp) (by simp) h

theorem sqQuoteLoop_parts (s : Str) (parts : List SQPart) (buf : Str) : sqQuoteLoop parts buf s = parts ++ sqQuoteLoop [] buf s := by
  induction s generalizing parts buf with
  | nil => simp only [sqQuoteLoop]; split <;> simp
  | cons c t ih =>
    simp only [sqQuoteLoop]
    split
    · rw [ih (_ ++ _), ih (_ ++ _) (buf := [])]; split <;> simp
    · rw [ih parts]

theorem sqQuoteLoop_chain (s buf : Str) (hb : ∀ c ∈ buf, c ≠ '\'' ∧ c ≠ '\n') (hs : '\n' ∉ s) : SQChain (sqQuoteLoop [] buf s) := by
  induction s generalizing buf with
  | nil =>
    simp only [sqQuoteLoop]
    cases buf with
    | nil => exact .nil
    | cons c t => exact .one ⟨by simp, hb⟩
  | cons c t ih =>
    simp only [List.mem_cons, not_or] at hs
    simp only [sqQuoteLoop]
    split
    · rw [sqQuoteLoop_parts]
      have := sqChain_escape (ih [] (by simp) hs.2)
      cases buf with
      | nil => exact this
      | cons d u => exact sqChain_text ⟨by simp, hb⟩ this
    · rename_i hc
      exact ih _ (by intro d hd; rcases List.mem_append.1 hd with hd | hd; exact hb d hd; simp at hd; subst hd; exact ⟨hc, fun h => hs.1 h.symm⟩) hs.2

theorem flushDQ_parts (parts : List DQPart) (buf : Str) : flushDQ parts buf = parts ++ flushDQ [] buf := by
  simp only [flushDQ]; split <;> simp

theorem dqBackslashLoop_parts (s : Str) (parts : List DQPart) (buf : Str) : dqBackslashLoop parts buf s = parts ++ dqBackslashLoop [] buf s := by
  induction s generalizing parts buf with
  | nil => simp only [dqBackslashLoop]; exact flushDQ_parts _ _
  | cons c t ih =>
    simp only [dqBackslashLoop]
    split
    · rw [ih (_ ++ _), ih (_ ++ _) (buf := []), flushDQ_parts]; simp
    · rw [ih parts]

theorem dqNewlineLoop_parts (s : Str) (parts : List DQPart) (buf : Str) : dqNewlineLoop parts buf s = parts ++ dqNewlineLoop [] buf s := by
  induction s generalizing parts buf with
  | nil => simp only [dqNewlineLoop]; exact flushDQ_parts _ _
  | cons c t ih =>
    simp only [dqNewlineLoop]
    split
    · rw [ih (_ ++ _), ih (_ ++ _) (buf := []), flushDQ_parts]; simp
    · split
      · rw [ih (_ ++ _), ih (_ ++ _) (buf := []), flushDQ_parts]; simp
      · split
        · rw [ih (_ ++ _), ih (_ ++ _) (buf := []), flushDQ_parts]; simp
        · split
          · rw [ih (_ ++ _), ih (_ ++ _) (buf := []), flushDQ_parts]; simp
          · rw [ih parts]

theorem flushDQ_chain {buf : Str} {c : DQEscapedChar} {ps : List DQPart} (hb : ∀ c ∈ buf, c ≠ '"' ∧ c ≠ '\\' ∧ c ≠ '\n') (h : DQChain ps) :
    DQChain (flushDQ [] buf ++ [.escapedChar c] ++ ps) := by
  have := dqChain_escape c h
  cases buf with
  | nil => exact this
  | cons d u => exact dqChain_text ⟨by simp, hb⟩ this

theorem dqBackslashLoop_chain (s buf : Str) (hb : ∀ c ∈ buf, c ≠ '"' ∧ c ≠ '\\' ∧ c ≠ '\n') (hs : '\n' ∉ s ∧ '"' ∉ s) : DQChain (dqBackslashLoop [] buf s) := by
  induction s generalizing buf with
  | nil =>
    simp only [dqBackslashLoop]
    cases buf with
    | nil => exact .nil
    | cons c t => exact .one ⟨by simp, hb⟩
  | cons c t ih =>
    simp only [List.mem_cons, not_or] at hs
    simp only [dqBackslashLoop]
    split
    · rw [dqBackslashLoop_parts]
      exact flushDQ_chain hb (ih [] (by simp) ⟨hs.1.2, hs.2.2⟩)
    · rename_i hc
      refine ih _ ?_ ⟨hs.1.2, hs.2.2⟩
      intro d hd
      rcases List.mem_append.1 hd with hd | hd
      · exact hb d hd
      · simp at hd; subst hd; exact ⟨fun h => hs.2.1 h.symm, hc, fun h => hs.1.1 h.symm⟩

theorem dqNewlineLoop_chain (s buf : Str) (hb : ∀ c ∈ buf, c ≠ '"' ∧ c ≠ '\\' ∧ c ≠ '\n') : DQChain (dqNewlineLoop [] buf s) := by
  induction s generalizing buf with
  | nil =>
    simp only [dqNewlineLoop]
    cases buf with
    | nil => exact .nil
    | cons c t => exact .one ⟨by simp, hb⟩
  | cons c t ih =>
    simp only [dqNewlineLoop]
    split
    · rw [dqNewlineLoop_parts]; exact flushDQ_chain hb (ih [] (by simp))
    · split
      · rw [dqNewlineLoop_parts]; exact flushDQ_chain hb (ih [] (by simp))
      · split
        · rw [dqNewlineLoop_parts]; exact flushDQ_chain hb (ih [] (by simp))
        · split
          · rw [dqNewlineLoop_parts]; exact flushDQ_chain hb (ih [] (by simp))
          · rename_i h1 h2 h3 h4
            refine ih _ ?_
            intro d hd
            rcases List.mem_append.1 hd with hd | hd
            · exact hb d hd
            · simp at hd; subst hd; exact ⟨h3, h4, h1⟩

/-- What the serializer makes of a string. -/
theorem strToYaml_cases (s : Str) : (needsQuoting s = false ∧ strToYaml s = .unquotedString s) ∨
    (∃ ps, strToYaml s = .singleQuotedString ps ∧ SQChain ps) ∨ (∃ ps, strToYaml s = .doubleQuotedString ps ∧ DQChain ps) := by
  unfold strToYaml
  split
  · rename_i h; exact .inl ⟨by simpa using h, rfl⟩
  · split
    · rename_i h
      simp at h
      split
      · rename_i h'
        simp at h'
        exact .inr (.inr ⟨_, rfl, dqBackslashLoop_chain s [] (by simp) ⟨h.1, h'.2⟩⟩)
      · exact .inr (.inl ⟨_, rfl, sqQuoteLoop_chain s [] (by simp) h.1⟩)
    · exact .inr (.inr ⟨_, rfl, dqNewlineLoop_chain s [] (by simp)⟩)


/-! ## plain texts -/

theorem containsStr_append (pat a b : Str) : containsStr pat (a ++ (pat ++ b)) = true := by
  induction a with
  | nil => 
    cases h : pat ++ b with
    | nil => simp at h; simp [containsStr, h.1]
    | cons c t => rw [List.nil_append, containsStr, ← h]; simp [List.isPrefixOf_iff_prefix]
  | cons c t ih => rw [List.cons_append, containsStr, ih, Bool.or_true]

theorem needsQuoting_spec {s : Str} (h : needsQuoting s = false) :
    s ≠ [] ∧ s.head? ≠ some ' ' ∧ s.getLast? ≠ some ' ' ∧ s.head? ≠ some '\'' ∧ (∀ a b, s ≠ a ++ ':' :: ' ' :: b) ∧
    ∀ c ∈ s, c ∉ quotingChars := by
  simp only [needsQuoting, Bool.or_eq_false_iff, Bool.not_eq_false'] at h
  obtain ⟨h1, h2⟩ := h
  have hc : ∀ c ∈ [',', '[', ']', '{', '}', '"', '>', '|'], c ∉ s := by
    simp only [inlineBreakingChars, Bool.or_eq_false_iff, List.contains_eq_mem, decide_eq_false_iff_not] at h2
    simp only [List.mem_cons, List.not_mem_nil, or_false]
    rintro c (rfl | rfl | rfl | rfl | rfl | rfl | rfl | rfl) <;> simp_all
  cases s with
  | nil => simp [canBeUnquotedInBlock] at h1
  | cons x t =>
    simp only [canBeUnquotedInBlock, List.head?_cons] at h1
    split at h1
    · simp at h1
    rename_i ha
    simp [-List.mem_cons] at ha h1
    refine ⟨by simp, ?_, ?_, by simpa using h1.1.1.1.1.2, ?_, fun c hm hq => ?_⟩
    · have := ha.1; simpa [startsWithChar] using this
    · intro he
      have := ha.2
      simp [endsWithChar, he] at this
    · intro a b he
      have := h1.2.1.1.1.1
      rw [he, show a ++ ':' :: ' ' :: b = a ++ ([':', ' '] ++ b) from rfl, containsStr_append] at this
      exact absurd this (by decide)
    · simp only [quotingChars, List.mem_cons (b := ','), List.mem_cons (b := '['), List.mem_cons (b := ']'), List.mem_cons (b := '{'), List.mem_cons (b := '}'),
        List.mem_cons (b := '"'), List.mem_cons (b := '>'), List.mem_cons (b := '|'), List.mem_cons (b := '#'), List.mem_cons (b := '\n'), List.mem_cons (b := '\r'), List.not_mem_nil, or_false] at hq
      rcases hq with rfl | rfl | rfl | rfl | rfl | rfl | rfl | rfl | rfl | rfl | rfl <;>
        first | (refine hc _ ?_ hm; simp; done) | (rw [List.mem_cons] at hm; grind)

theorem Spec.PortableText.safe {spot : Spot} {s : Str} (h : PortableText T spot s) (hq : needsQuoting s = false) : SafePlain T spot s := by
  rcases h with (⟨c, hc, hm⟩ | ⟨a, b, he⟩ | he) | h
  · exact absurd hm ((needsQuoting_spec hq).2.2.2.2.2 c hc)
  · exact absurd he ((needsQuoting_spec hq).2.2.2.2.1 a b)
  · exact absurd he (needsQuoting_spec hq).2.2.1
  · exact h

theorem Spec.SafePlain.block {spot : Spot} {s : Str} (h : SafePlain T spot s) (hq : needsQuoting s = false) : BlockPlain T s := by
  obtain ⟨h1, h2, h3, h4, h5, h6⟩ := needsQuoting_spec hq
  refine ⟨h1, ⟨fun hm => h6 _ hm (by decide), fun hm => h6 _ hm (by decide)⟩, fun hm => h6 _ hm (by decide), h5, h3, fun c hc => ⟨fun hm => ?_, ?_⟩,
    h.notMark, h.notDash, h.notKey⟩
  · have := h6 c (List.mem_of_mem_head? hc)
    simp only [List.mem_cons, List.not_mem_nil, or_false] at hm
    rcases hm with rfl | rfl | rfl | rfl | rfl | rfl | rfl | rfl <;> first | exact this (by decide) | exact h4 hc
  · rw [Bool.eq_false_iff]
    intro hs
    rw [h.space c hc hs] at hc
    exact h2 hc

theorem Spec.SafePlain.flow {s : Str} (h : SafePlain T .flow s) (hq : needsQuoting s = false) : FlowPlain T s := by
  obtain ⟨h1, h2, h3, h4, h5, h6⟩ := needsQuoting_spec hq
  refine ⟨h1, ⟨fun hm => h6 _ hm (by decide), fun hm => h6 _ hm (by decide)⟩, fun c hc hm => h6 c hc ?_, fun c hc => ?_, h5, ⟨h3, h.colon rfl⟩, ⟨h2, h4⟩,
    fun d t he => h.notMark '*' d t he (.inr rfl)⟩
  · simp only [quotingChars, List.mem_cons, List.not_mem_nil, or_false] at hm ⊢
    grind
  · have := h6 c (List.mem_of_mem_tail hc)
    simp only [quotingChars, List.mem_cons, List.not_mem_nil, or_false] at this
    grind

theorem floatChar_ascii {c : Char} (h : floatChar c = true) : c.toNat < 128 := by
  have key : ∀ d : Char, d.toNat < 128 → c = d → c.toNat < 128 := fun d hd he => he ▸ hd
  simp only [floatChar, Bool.or_eq_true, beq_iff_eq, List.contains_eq_mem, decide_eq_true_eq] at h
  rcases h with (((((h | rfl) | rfl) | rfl) | rfl) | rfl) | h
  · have := isDigit_range h; omega
  · decide
  · decide
  · decide
  · decide
  · decide
  · by_cases hr : 65 ≤ c.toNat ∧ c.toNat ≤ 90
    · omega
    · have hl : lowerAscii c = c := by
        simp only [lowerAscii]
        split
        · rename_i h'; simp at h'; exact absurd h' hr
        · rfl
      rw [hl] at h
      simp only [List.mem_cons, List.not_mem_nil, or_false] at h
      rcases h with rfl | rfl | rfl | rfl | rfl | rfl | rfl | rfl | rfl | rfl <;> decide

/-- Texts of numbers. -/
theorem plain_of_floatChars {s : Str} (hne : s ≠ []) (hd : s ≠ ['-']) (h : s.all floatChar = true) : BlockPlain T s ∧ FlowPlain T s := by
  rw [List.all_eq_true] at h
  have hn : ∀ c, floatChar c = false → c ∉ s := by
    intro c hc hm
    rw [h c hm] at hc
    exact absurd hc (by decide)
  have hl : LineText s := ⟨hn _ (by decide), hn _ (by decide)⟩
  have hcol : ∀ a b, s ≠ a ++ ':' :: b := fun a b he => hn ':' (by decide) (by simp [he])
  have hlast : ∀ c, floatChar c = false → s.getLast? ≠ some c := fun c hc hm => hn c hc (List.mem_of_getLast? hm)
  have hhead : ∀ c, floatChar c = false → s.head? ≠ some c := fun c hc hm => hn c hc (List.mem_of_mem_head? hm)
  have hsp : ∀ c, floatChar c = true → isSpaceSeparator c = false := by
    intro c hc
    rw [Bool.eq_false_iff]
    intro hs
    have hlt := floatChar_ascii hc
    have : c = ' ' := by
      simp only [isSpaceSeparator, Bool.or_eq_true, Bool.and_eq_true, beq_iff_eq, decide_eq_true_eq] at hs
      exact Char.toNat_inj.1 (show c.toNat = 32 by omega)
    subst this
    exact absurd hc (by decide)
  refine ⟨⟨hne, hl, hn _ (by decide), fun a b => hcol a _, hlast _ (by decide), fun c hc => ⟨fun hm => ?_, hsp c (h c (List.mem_of_mem_head? hc))⟩,
      fun c d t he hcd => ?_, fun t he hb => ?_, fun c k t he => absurd he (hcol _ _)⟩,
    ⟨hne, hl, fun c hc hm => ?_, fun c hc => ?_, fun a b => hcol a _, ⟨hlast _ (by decide), hlast _ (by decide)⟩, ⟨hhead _ (by decide), hhead _ (by decide)⟩,
      fun d t he => ?_⟩⟩
  · have := h c (List.mem_of_mem_head? hc)
    simp only [List.mem_cons, List.not_mem_nil, or_false] at hm
    rcases hm with rfl | rfl | rfl | rfl | rfl | rfl | rfl | rfl <;> exact absurd this (by decide)
  · have := h c (by simp [he])
    rcases hcd with rfl | rfl <;> exact absurd this (by decide)
  · cases t with
    | nil => exact hd he
    | cons c t =>
      have := hsp c (h c (by simp [he]))
      rw [hb c rfl] at this
      exact absurd this (by decide)
  · have := h c hc
    simp only [List.mem_cons, List.not_mem_nil, or_false] at hm
    rcases hm with rfl | rfl | rfl | rfl | rfl | rfl | rfl <;> exact absurd this (by decide)
  · have := h c (List.mem_of_mem_tail hc)
    exact ⟨by rintro rfl; exact absurd this (by decide), by rintro rfl; exact absurd this (by decide)⟩
  · exact absurd (h '*' (by simp [he])) (by decide)


/-! ## nodes -/

/-- The node survives at a spot. -/
def NodeOk (T : CharTables) (spot : Spot) (y : Yaml) : Prop :=
  match spot with
  | .flow => Flow T (flowEmpty y)
  | .field => ∀ p, Readable T p .key false (flowEmpty y)
  | .element => ∀ p : Place, ¬ (p.deep = true ∧ p.next = .key) → Readable T p .dash false (flowEmpty y)

theorem nodeOk_scalar {spot : Spot} {y : Yaml} (he : flowEmpty y = y) (ho : spot ≠ .flow → OneLine T y) (hf : spot = .flow → Flow T y) : NodeOk T spot y := by
  cases spot with
  | flow => rw [NodeOk, he]; exact hf rfl
  | field => intro p; rw [he]; exact .oneLine (ho (by simp))
  | element => intro p _; rw [he]; exact .oneLine (ho (by simp))

theorem nodeOk_flow {spot : Spot} {y : Yaml} (ho : OneLine T (flowEmpty y)) (hf : Flow T (flowEmpty y)) : NodeOk T spot y := by
  cases spot with
  | flow => exact hf
  | field => exact fun p => .oneLine ho
  | element => exact fun p _ => .oneLine ho

theorem nodeOk_strToYaml {spot : Spot} {s : Str} (h : PortableText T spot s) : NodeOk T spot (strToYaml s) := by
  rcases strToYaml_cases s with ⟨hq, he⟩ | ⟨ps, he, hc⟩ | ⟨ps, he, hc⟩ <;> rw [he]
  · exact nodeOk_scalar rfl (fun _ => .plain ((h.safe hq).block hq)) (by rintro rfl; exact .plain ((h.safe hq).flow hq))
  · exact nodeOk_scalar rfl (fun _ => .single hc) (fun _ => .single hc)
  · exact nodeOk_scalar rfl (fun _ => .double hc) (fun _ => .double hc)

theorem nodeOk_number {spot : Spot} {s : Str} (hne : s ≠ []) (hd : s ≠ ['-']) (h : s.all floatChar = true) : NodeOk T spot (.unquotedString s) :=
  nodeOk_scalar rfl (fun _ => .plain (plain_of_floatChars hne hd h).1) (fun _ => .plain (plain_of_floatChars hne hd h).2)

theorem nodeOk_word {spot : Spot} {s : Str} (h : s ∈ [c!"true", c!"false", c!"~"]) : NodeOk T spot (.unquotedString s) := by
  simp only [List.mem_cons, List.not_mem_nil, or_false] at h
  refine nodeOk_scalar rfl (fun _ => .plain (blockPlain_simple ?_)) (fun _ => .plain (flowPlain_simple ?_)) <;>
    rcases h with rfl | rfl | rfl <;> decide

theorem flowEmptyYamls_eq (ys : List Yaml) : flowEmptyYamls ys = ys.map flowEmpty := by
  induction ys with
  | nil => rfl
  | cons y t ih => simp [flowEmptyYamls, ih]

theorem nodeOk_tuple {spot : Spot} {ys : List Yaml} (h : ∀ y ∈ ys, NodeOk T .flow y) : NodeOk T spot (.inlineArray ys) := by
  have hf : Flow T (flowEmpty (.inlineArray ys)) := by
    rw [flowEmpty, flowEmptyYamls_eq]
    refine .array fun v hv => ?_
    obtain ⟨y, hy, rfl⟩ := List.mem_map.1 hv
    exact h y hy
  have ho : OneLine T (flowEmpty (.inlineArray ys)) := by
    rw [flowEmpty] at hf ⊢
    exact .array hf
  exact nodeOk_flow ho hf

theorem elements_nodes {next : Next} {ys : List Yaml} (hne : ys ≠ []) (h : ∀ y ∈ ys, NodeOk T .element y) :
    Elements T (Readable T) next (flowEmptyArray (ys.map fun y => .element ⟨none, y⟩)) := by
  induction ys with
  | nil => exact absurd rfl hne
  | cons y t ih =>
    cases t with
    | nil => exact .last no_name (h y (by simp) _ (by simp))
    | cons z t => exact .element no_name (h y (by simp) _ (by simp)) (ih (by simp) fun x hx => h x (by simp [hx]))

theorem nodeOk_seq {spot : Spot} {ys : List Yaml} (hf : spot = .flow → ys = []) (he : spot = .element → ys.length ≠ 1)
    (h : ∀ y ∈ ys, NodeOk T .element y) : NodeOk T spot (seqNode ys) := by
  match ys, hf, he, h with
  | [], _, _, _ => exact nodeOk_flow (.array (.array (by simp))) (.array (by simp))
  | y :: t, hf, he, h =>
    match spot, hf, he with
    | .flow, hf, _ => simp at hf
    | .field, _, _ => exact fun p => .array (elements_nodes (by simp) h)
    | .element, _, he =>
      match t, he, h with
      | [], he, _ => simp at he
      | z :: t, _, h =>
        exact fun p hp => .seqMore (.inl rfl) no_name (h y (by simp) _ (by simp)) (elements_nodes (ys := z :: t) (by simp) fun x hx => h x (by simp [hx]))

theorem entries_nodes {next : Next} {es : List (Str × Yaml)} (hne : es ≠ []) (hk : ∀ k y, (k, y) ∈ es → KeyText T k) (h : ∀ k y, (k, y) ∈ es → NodeOk T .field y) :
    Entries T (Readable T) next (flowEmptyHash (es.map fun kv => .element ⟨kv.1, ⟨none, kv.2⟩⟩)) := by
  induction es with
  | nil => exact absurd rfl hne
  | cons e t ih =>
    obtain ⟨k, y⟩ := e
    cases t with
    | nil => exact .last (hk k y (by simp)) no_name (h k y (by simp) _)
    | cons z t =>
      exact .entry (hk k y (by simp)) no_name (h k y (by simp) _) (ih (by simp) (fun x z hx => hk x z (by simp [hx])) fun x z hx => h x z (by simp [hx]))

theorem nodeOk_map {spot : Spot} {es : List (Str × Yaml)} (hf : spot = .flow → es = []) (hk : ∀ k y, (k, y) ∈ es → KeyText T k)
    (h : ∀ k y, (k, y) ∈ es → NodeOk T .field y) : NodeOk T spot (mapNode es) := by
  match es, hf, hk, h with
  | [], _, _, _ => exact nodeOk_flow (.hash (.hash (by simp) (by simp))) (.hash (by simp) (by simp))
  | (k, y) :: t, hf, hk, h =>
    match spot, hf with
    | .flow, hf => simp at hf
    | .field, _ => exact fun p => .hash (entries_nodes (by simp) hk h)
    | .element, _ =>
      intro p hp
      cases t with
      | nil => exact .altOne (.inl rfl) hp (hk k y (by simp)) no_name (h k y (by simp) _)
      | cons z t =>
        exact .altMore (.inl rfl) (hk k y (by simp)) no_name (h k y (by simp) _)
          (entries_nodes (es := z :: t) (by simp) (fun x z hx => hk x z (by simp [hx])) fun x z hx => h x z (by simp [hx]))

theorem intToStr_plain (i : Int) : intToStr i ≠ [] ∧ intToStr i ≠ ['-'] := by
  cases i with
  | ofNat n => exact ⟨natToStr_ne_nil n, (natToStr_no_sign n []).2⟩
  | negSucc n =>
    refine ⟨by simp [intToStr], ?_⟩
    have := natToStr_ne_nil (n + 1)
    simpa [intToStr] using this

theorem node_of_portable {spot : Spot} {v : SVal} (h : Portable T spot v) {y : Yaml} (hs : v.ser = some y) : NodeOk T spot y := by
  induction h generalizing y with
  | bool b =>
    simp only [SVal.ser, Option.some.injEq] at hs; subst hs
    exact nodeOk_word (by cases b <;> decide)
  | int i =>
    simp only [SVal.ser, Option.some.injEq] at hs; subst hs
    exact nodeOk_number (intToStr_plain i).1 (intToStr_plain i).2 (intToStr_floatChars i)
  | @float spot t h =>
    simp only [SVal.ser, Option.some.injEq] at hs; subst hs
    exact nodeOk_number (by rintro rfl; exact absurd h (by decide)) (by rintro rfl; exact absurd h (by decide)) (f64_chars h)
  | char h => simp only [SVal.ser, Option.some.injEq] at hs; subst hs; exact nodeOk_strToYaml h
  | str h => simp only [SVal.ser, Option.some.injEq] at hs; subst hs; exact nodeOk_strToYaml h
  | unit => simp only [SVal.ser, Option.some.injEq] at hs; subst hs; exact nodeOk_word (by decide)
  | none => simp only [SVal.ser, Option.some.injEq] at hs; subst hs; exact nodeOk_word (by decide)
  | some _ ih => exact ih (by simpa only [SVal.ser] using hs)
  | newtype _ ih => exact ih (by simpa only [SVal.ser] using hs)
  | unitVariant h => simp only [SVal.ser, Option.some.injEq] at hs; subst hs; exact nodeOk_strToYaml h
  | @tuple spot vs _ ih =>
    simp only [SVal.ser, Option.map_eq_some_iff] at hs
    obtain ⟨ys, hy, rfl⟩ := hs
    obtain ⟨ps, rfl, rfl, hp⟩ := serList_map (fun v => v) (qs := vs) (by simpa using hy)
    refine nodeOk_tuple fun z hz => ?_
    obtain ⟨q, hq, rfl⟩ := List.mem_map.1 hz
    exact ih _ (List.mem_map.2 ⟨_, hq, rfl⟩) (hp q hq)
  | @bytes spot bs hf he =>
    simp only [SVal.ser, Option.some.injEq] at hs; subst hs
    refine nodeOk_seq (fun h => by simp [hf h]) (fun h => by simpa using he h) fun z hz => ?_
    obtain ⟨q, hq, rfl⟩ := List.mem_map.1 hz
    exact nodeOk_number (natToStr_ne_nil q) (natToStr_no_sign q []).2 (natToStr_floatChars q)
  | @seq spot vs hf he _ ih =>
    simp only [SVal.ser, Option.map_eq_some_iff] at hs
    obtain ⟨ys, hy, rfl⟩ := hs
    obtain ⟨ps, rfl, rfl, hp⟩ := serList_map (fun v => v) (qs := vs) (by simpa using hy)
    refine nodeOk_seq (fun h => by simpa using hf h) (fun h => by simpa using he h) fun z hz => ?_
    obtain ⟨q, hq, rfl⟩ := List.mem_map.1 hz
    exact ih _ (List.mem_map.2 ⟨_, hq, rfl⟩) (hp q hq)
  | @map spot es hf hk _ ih =>
    simp only [SVal.ser, Option.map_eq_some_iff] at hs
    obtain ⟨ys, hy, rfl⟩ := hs
    obtain ⟨ps, rfl, rfl, hp⟩ := serEntries_map hy
    refine nodeOk_map (fun h => by simpa using hf h) (fun k z hz => ?_) fun k z hz => ?_
    · simp only [List.mem_map, Prod.mk.injEq] at hz
      obtain ⟨q, hq, rfl, rfl⟩ := hz
      have hkey := (hp q hq).1
      simp only [Option.bind_eq_some_iff] at hkey
      obtain ⟨x, hx, hkey⟩ := hkey
      refine hk _ _ _ (List.mem_map.2 ⟨_, hq, rfl⟩) (keyText_of_ser _ hx ?_)
      cases x <;> simp [yamlToKeyString] at hkey <;> simp [Yaml.asString, hkey]
    · simp only [List.mem_map, Prod.mk.injEq] at hz
      obtain ⟨q, hq, rfl, rfl⟩ := hz
      exact ih _ _ (List.mem_map.2 ⟨_, hq, rfl⟩) (hp q hq).2
  | @struct spot fs hf hk _ ih =>
    simp only [SVal.ser, Option.map_eq_some_iff] at hs
    obtain ⟨ys, hy, rfl⟩ := hs
    obtain ⟨ps, rfl, rfl, hp⟩ := serFields_map (fun q : Str × SVal => q.1) (fun q => q.2) (qs := fs) (by simpa using hy)
    refine nodeOk_map (fun h => by simpa using hf h) (fun k z hz => ?_) fun k z hz => ?_
    · simp only [List.mem_map, Prod.mk.injEq] at hz
      obtain ⟨q, hq, rfl, rfl⟩ := hz
      exact hk _ _ (List.mem_map.2 ⟨_, hq, rfl⟩)
    · simp only [List.mem_map, Prod.mk.injEq] at hz
      obtain ⟨q, hq, rfl, rfl⟩ := hz
      exact ih _ _ (List.mem_map.2 ⟨_, hq, rfl⟩) (hp q hq)

end YamlSubset
