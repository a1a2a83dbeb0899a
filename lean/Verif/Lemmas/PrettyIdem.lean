import Verif.Lemmas.Pretty

/-! # Lemmas: when `pretty` is idempotent -/

namespace YamlSubset

open Spec

theorem inlineBreakingChars_iff (s : Str) : inlineBreakingChars s = false ↔ FlowFit s := by
  simp [inlineBreakingChars, FlowFit, flowIndicators, and_assoc]

theorem strToSQPartsAux_no_blank (s : Str) (parts : List SQPart) (buf : Str)
    (h : parts.any (fun x => match x with | .blankLines _ => true | _ => false) = false) :
    (strToSQPartsAux parts buf s).any
      (fun x => match x with | .blankLines _ => true | _ => false) = false := by
  induction s generalizing parts buf with
  | nil => cases buf <;> simp_all [strToSQPartsAux]
  | cons x xs ih =>
    simp only [strToSQPartsAux]
    split
    · apply ih; cases buf <;> simp_all
    · exact ih _ _ h

/-- The outcomes for a single-quoted scalar. -/
theorem prettySingleQuoted_cases (i : Bool) (ps : List SQPart) :
    (∃ ls c, prettySingleQuoted i ps = .literalString ls c) ∨
    (i = false ∧ ∃ s, prettySingleQuoted i ps = .unquotedString s ∧ inlineBreakingChars s = false) ∨
    (i = false ∧ ∃ ls c, prettySingleQuoted i ps = .foldedString ls c) ∨
    (prettySingleQuoted i ps = .singleQuotedString ps ∧
      prettySingleQuoted true ps = .singleQuotedString ps) := by
  unfold prettySingleQuoted
  simp only
  generalize (List.any ps _) = b
  cases b
  · cases i
    · simp only [Bool.false_eq_true, if_false, Bool.not_false, Bool.true_and, Bool.not_true,
        Bool.false_and, if_true, true_and, and_true]
      split
      · rename_i h
        simp only [Bool.and_eq_true, Bool.not_eq_true'] at h
        exact .inr (.inl ⟨_, rfl, h.1.2⟩)
      · split
        · exact .inr (.inr (.inl ⟨_, _, rfl⟩))
        · exact .inr (.inr (.inr rfl))
    · simp
  · exact .inl ⟨_, _, rfl⟩

/-- The outcomes for a double-quoted scalar. -/
theorem prettyDoubleQuoted_cases (i : Bool) (ps : List DQPart) :
    (∃ ls c, prettyDoubleQuoted i ps = .literalString ls c) ∨
    (∃ ls c, prettyDoubleQuoted i ps = .foldedString ls c) ∨
    prettyDoubleQuoted i ps = .doubleQuotedString ps := by
  unfold prettyDoubleQuoted
  repeat' split
  · exact .inr (.inr rfl)
  · simp only
    split
    · exact .inl ⟨_, _, rfl⟩
    · split
      · exact .inr (.inl ⟨_, _, rfl⟩)
      · exact .inr (.inr rfl)

/-- In flow context `pretty` is idempotent, whatever it is given. -/
theorem pretty_inline_idem (y : Yaml) (c c' : Bool) :
    (y.pretty true c).pretty true c' = y.pretty true c := by
  induction y using Yaml.induct generalizing c c' with
  | hIH es ih =>
    simp only [Yaml.pretty, prettyEntries_eq, List.map_map]
    refine congrArg _ (List.map_congr_left fun e he => ?_)
    obtain ⟨k, v⟩ := e
    simp [ih k v he]
  | hH ds ih =>
    simp only [Yaml.pretty]
    split
    · rfl
    · simp only [if_true, hashToEntries_eq, Yaml.pretty, prettyEntries_eq, List.map_map]
      refine congrArg _ (List.map_congr_left fun e he => ?_)
      obtain ⟨k, v⟩ := e
      obtain ⟨a, ha⟩ := HashData.mem_entry.1 he
      simp [ih k a v ha]
  | hIA es ih =>
    simp only [Yaml.pretty, prettyYamls_eq, List.map_map]
    refine congrArg _ (List.map_congr_left fun v hv => ?_)
    simp [ih v hv]
  | hA ds ih =>
    simp only [Yaml.pretty]
    split
    · rfl
    · simp only [if_true, arrayToYamls_eq, Yaml.pretty, prettyYamls_eq, List.map_map]
      refine congrArg _ (List.map_congr_left fun v hv => ?_)
      obtain ⟨a, ha⟩ := ArrayData.mem_value.1 hv
      simp [ih a v ha]
  | hS ps =>
    simp only [Yaml.pretty]
    rcases prettySingleQuoted_cases true ps with ⟨ls, ch, h⟩ | ⟨h, _⟩ | ⟨h, _⟩ | ⟨h, _⟩
    · rw [h]; rfl
    · cases h
    · cases h
    · rw [h]; exact h
  | hD ps => rfl
  | hU s =>
    simp only [Yaml.pretty]
    by_cases h : (true && inlineBreakingChars s) = true
    · simp only [if_pos h, Yaml.pretty, prettySingleQuoted]
      have := strToSQPartsAux_no_blank s [] [] rfl
      simp only [← strToSingleQuotedParts.eq_1] at this
      split
      · rename_i h'; exact absurd (this.symm.trans h') (by simp)
      · simp
    · simp only [if_neg h, Yaml.pretty]
  | hF ls c => rfl
  | hL ls c => rfl
  | hN a => rfl

/-- After `pretty` in flow context all plain scalars fit. -/
theorem allPlain_pretty_inline (y : Yaml) (c : Bool) : AllPlain FlowFit (y.pretty true c) := by
  induction y using Yaml.induct generalizing c with
  | hIH es ih =>
    simp only [Yaml.pretty, prettyEntries_eq]
    refine .inlineHash fun k v hv => ?_
    simp only [List.mem_map] at hv
    obtain ⟨⟨k', v'⟩, h, he⟩ := hv
    simp at he; rw [← he.2]; exact ih k' v' h _
  | hH ds ih =>
    simp only [Yaml.pretty]
    split
    · exact .inlineHash (by simp)
    · simp only [if_true, hashToEntries_eq]
      refine .inlineHash fun k v hv => ?_
      simp only [List.mem_map] at hv
      obtain ⟨⟨k', v'⟩, h, he⟩ := hv
      obtain ⟨a, ha⟩ := HashData.mem_entry.1 h
      simp at he; rw [← he.2]; exact ih k' a v' ha _
  | hIA es ih =>
    simp only [Yaml.pretty, prettyYamls_eq]
    refine .inlineArray fun v hv => ?_
    obtain ⟨w, hw, rfl⟩ := List.mem_map.1 hv
    exact ih w hw _
  | hA ds ih =>
    simp only [Yaml.pretty]
    split
    · exact .inlineArray (by simp)
    · simp only [if_true, arrayToYamls_eq]
      refine .inlineArray fun v hv => ?_
      obtain ⟨w, hw, rfl⟩ := List.mem_map.1 hv
      obtain ⟨a, ha⟩ := ArrayData.mem_value.1 hw
      exact ih a w ha _
  | hS ps =>
    simp only [Yaml.pretty]
    rcases prettySingleQuoted_cases true ps with ⟨ls, ch, h⟩ | ⟨h, _⟩ | ⟨h, _⟩ | ⟨h, _⟩
    · rw [h]; constructor
    · cases h
    · cases h
    · rw [h]; constructor
  | hD ps => exact .doubleQuotedString _
  | hU s =>
    simp only [Yaml.pretty, Bool.true_and]
    split
    · exact .singleQuotedString _
    · rename_i h
      exact .unquotedString ((inlineBreakingChars_iff s).1 (by simpa using h))
  | hF ls c => exact .foldedString _ _
  | hL ls c => exact .literalString _ _
  | hN a => exact .anchor _

/-- An element that `pretty` put into a flow array is stable when its plain scalars fit. -/
theorem pretty_inlined_stable (w : Yaml) (c c' : Bool) (hi : isInlineable (w.pretty false c) = true)
    (hp : AllPlain FlowFit (w.pretty false c)) :
    (w.pretty false c).pretty true c' = w.pretty false c := by
  induction w using Yaml.induct generalizing c c' with
  | hIH es ih =>
    simp only [Yaml.pretty, prettyEntries_eq, List.map_map]
    refine congrArg _ (List.map_congr_left fun e he => ?_)
    simp [pretty_inline_idem]
  | hH ds ih =>
    simp only [Yaml.pretty, Bool.false_eq_true, if_false] at hi ⊢
    split
    · rfl
    · rename_i h; rw [if_neg h] at hi; simp [isInlineable] at hi
  | hIA es ih =>
    simp only [Yaml.pretty, prettyYamls_eq, List.map_map]
    refine congrArg _ (List.map_congr_left fun v hv => ?_)
    simp [pretty_inline_idem]
  | hA ds ih =>
    simp only [Yaml.pretty, Bool.false_eq_true, if_false] at hi hp ⊢
    split
    · rfl
    · rename_i h
      rw [if_neg h] at hi hp
      revert hi hp
      unfold autoInline
      split
      · rename_i hc
        intro _ hp
        simp only [Bool.and_eq_true, List.all_eq_true] at hc
        replace hc := hc.1.2
        simp only [Yaml.pretty, prettyYamls_eq, arrayDataValues_eq, prettyArrayData_eq] at hp hc ⊢
        cases hp with
        | inlineArray hp =>
          congr 1
          conv => rhs; rw [← List.map_id (List.filterMap _ _)]
          refine List.map_congr_left fun v hv => ?_
          have hv' := hp v hv
          obtain ⟨a, ha⟩ := ArrayData.mem_value.1 hv
          have hin := hc _ ha
          simp only [arrayDataInlineable, Bool.and_eq_true] at hin
          obtain ⟨w, hw, rfl⟩ := mem_map_onValue_array.1 ha
          exact ih a w hw _ _ hin.2 hv'
      · intro hi; simp [isInlineable] at hi
  | hS ps =>
    simp only [Yaml.pretty] at hi ⊢
    rcases prettySingleQuoted_cases false ps with
      ⟨ls, ch, h⟩ | ⟨_, s, h, hb⟩ | ⟨_, ls, ch, h⟩ | ⟨h, h'⟩
    · rw [h]; rfl
    · rw [h]; simp [Yaml.pretty, hb]
    · rw [h]; rfl
    · rw [h]; exact h'
  | hD ps =>
    simp only [Yaml.pretty] at hi ⊢
    rcases prettyDoubleQuoted_cases false ps with ⟨ls, ch, h⟩ | ⟨ls, ch, h⟩ | h <;> rw [h] <;> rfl
  | hU s =>
    simp only [Yaml.pretty, Bool.false_and, Bool.false_eq_true, if_false] at hp ⊢
    cases hp with
    | unquotedString h => simp [(inlineBreakingChars_iff s).2 h]
  | hF ls c => rfl
  | hL ls c => rfl
  | hN a => rfl

theorem pretty_idem_of_fit (y : Yaml) (c : Bool) (h : FlowFitInFlow (y.pretty false c)) :
    (y.pretty false c).pretty false c = y.pretty false c := by
  induction y using Yaml.induct generalizing c with
  | hIH es ih =>
    simp only [Yaml.pretty, prettyEntries_eq, List.map_map]
    refine congrArg _ (List.map_congr_left fun e he => ?_)
    simp [pretty_inline_idem]
  | hH ds ih =>
    simp only [Yaml.pretty, Bool.false_eq_true, if_false] at h ⊢
    split
    · rfl
    · rename_i hne
      rw [if_neg hne] at h
      simp only [prettyHashData_eq] at h ⊢
      cases h with
      | hash h =>
        simp only [Yaml.pretty, Bool.false_eq_true, if_false, prettyHashData_eq, HashData.onValue_onValue]
        rw [if_neg (by simpa using hne)]
        refine congrArg _ (HashData.map_onValue_congr fun k a v hv => ?_)
        exact ih k a v hv _ (h k a _ (mem_map_onValue_hash.2 ⟨v, hv, rfl⟩))
  | hIA es ih =>
    simp only [Yaml.pretty, prettyYamls_eq, List.map_map]
    refine congrArg _ (List.map_congr_left fun v hv => ?_)
    simp [pretty_inline_idem]
  | hA ds ih =>
    simp only [Yaml.pretty, Bool.false_eq_true, if_false] at h ⊢
    split
    · rfl
    · rename_i hne
      rw [if_neg hne] at h
      simp only [prettyArrayData_eq] at h ⊢
      by_cases hc : (c && (ds.map (ArrayData.onValue (Yaml.pretty false true))).all arrayDataInlineable
          && byteLen (Yaml.format 0 none (.inlineArray (arrayDataValues
            (ds.map (ArrayData.onValue (Yaml.pretty false true)))))) ≤ maxLineLength) = true
      · have he : autoInline c (ds.map (ArrayData.onValue (Yaml.pretty false true))) =
            .inlineArray (arrayDataValues (ds.map (ArrayData.onValue (Yaml.pretty false true)))) := by
          unfold autoInline; rw [if_pos hc]
        rw [he] at h ⊢
        simp only [Bool.and_eq_true, List.all_eq_true] at hc
        cases h with
        | inlineArray h =>
          simp only [Yaml.pretty, prettyYamls_eq, arrayDataValues_eq] at h ⊢
          congr 1
          conv => rhs; rw [← List.map_id (List.filterMap _ _)]
          refine List.map_congr_left fun v hv => ?_
          have hv' := h v hv
          obtain ⟨a, ha⟩ := ArrayData.mem_value.1 hv
          have hin := hc.1.2 _ ha
          simp only [arrayDataInlineable, Bool.and_eq_true] at hin
          obtain ⟨w, hw, rfl⟩ := mem_map_onValue_array.1 ha
          exact pretty_inlined_stable w _ _ hin.2 hv'
      · have he : autoInline c (ds.map (ArrayData.onValue (Yaml.pretty false true))) =
            .array (ds.map (ArrayData.onValue (Yaml.pretty false true))) := by
          unfold autoInline; rw [if_neg hc]
        rw [he] at h ⊢
        cases h with
        | array h =>
          have hfix : prettyArrayData (ds.map (ArrayData.onValue (Yaml.pretty false true))) =
              ds.map (ArrayData.onValue (Yaml.pretty false true)) := by
            rw [prettyArrayData_eq, ArrayData.onValue_onValue]
            refine ArrayData.map_onValue_congr fun a v hv => ?_
            exact ih a v hv _ (h a _ (mem_map_onValue_array.2 ⟨v, hv, rfl⟩))
          simp only [Yaml.pretty, Bool.false_eq_true, if_false]
          rw [if_neg (by simpa using hne), hfix, he]
  | hS ps =>
    simp only [Yaml.pretty] at h ⊢
    rcases prettySingleQuoted_cases false ps with
      ⟨ls, ch, h⟩ | ⟨_, s, h, hb⟩ | ⟨_, ls, ch, h⟩ | ⟨h, h'⟩
    · rw [h]; rfl
    · rw [h]; simp [Yaml.pretty]
    · rw [h]; rfl
    · rw [h]; exact h
  | hD ps =>
    simp only [Yaml.pretty] at h ⊢
    rcases prettyDoubleQuoted_cases false ps with ⟨ls, ch, h⟩ | ⟨ls, ch, h⟩ | h
    · rw [h]; rfl
    · rw [h]; rfl
    · rw [h]; exact h
  | hU s => simp [Yaml.pretty]
  | hF ls c => rfl
  | hL ls c => rfl
  | hN a => rfl

theorem list_map_fixed {α} {f : α → α} {l : List α} (h : l.map f = l) : ∀ a ∈ l, f a = a := by
  induction l with
  | nil => simp
  | cons a t ih =>
    simp at h
    intro b hb
    rcases List.mem_cons.1 hb with rfl | hb
    · exact h.1
    · exact ih h.2 b hb

/-- A fixed point in flow context has only fitting plain scalars. -/
theorem allPlain_of_fixed (z : Yaml) (c : Bool) (h : z.pretty true c = z) : AllPlain FlowFit z := by
  rw [← h]; exact allPlain_pretty_inline z c

theorem fit_of_fixed (z : Yaml) (c : Bool) (h : z.pretty false c = z) : FlowFitInFlow z := by
  induction z using Yaml.induct generalizing c with
  | hIH es ih =>
    simp only [Yaml.pretty, prettyEntries_eq, Yaml.inlineHash.injEq] at h
    refine .inlineHash fun k v hv => allPlain_of_fixed v false ?_
    have := list_map_fixed h _ hv
    simpa using this
  | hH ds ih =>
    simp only [Yaml.pretty, Bool.false_eq_true, if_false] at h
    split at h
    · simp at h
    · simp only [prettyHashData_eq, Yaml.hash.injEq] at h
      refine .hash fun k a v hv => ih k a v hv false ?_
      have := list_map_fixed h _ hv
      simpa [HashData.onValue] using this
  | hIA es ih =>
    simp only [Yaml.pretty, prettyYamls_eq, Yaml.inlineArray.injEq] at h
    exact .inlineArray fun v hv => allPlain_of_fixed v false (list_map_fixed h _ hv)
  | hA ds ih =>
    simp only [Yaml.pretty, Bool.false_eq_true, if_false] at h
    split at h
    · simp at h
    · unfold autoInline at h
      split at h
      · simp at h
      · simp only [prettyArrayData_eq, Yaml.array.injEq] at h
        refine .array fun a v hv => ih a v hv true ?_
        have := list_map_fixed h _ hv
        simpa [ArrayData.onValue] using this
  | hS ps => exact .singleQuotedString _
  | hD ps => exact .doubleQuotedString _
  | hU s => exact .unquotedString _
  | hF ls c => exact .foldedString _ _
  | hL ls c => exact .literalString _ _
  | hN a => exact .anchor _

theorem allPlain_inlined (w : Yaml) (c : Bool) (hw : FlowFitInArrays w)
    (hi : isInlineable (w.pretty false c) = true)
    (hs : ∀ s, w = .unquotedString s → FlowFit s) : AllPlain FlowFit (w.pretty false c) := by
  induction w using Yaml.induct generalizing c with
  | hIH es ih =>
    simp only [Yaml.pretty, prettyEntries_eq]
    refine .inlineHash fun k v hv => ?_
    simp only [List.mem_map] at hv
    obtain ⟨⟨k', v'⟩, h, he⟩ := hv
    simp at he; rw [← he.2]; exact allPlain_pretty_inline _ _
  | hH ds ih =>
    simp only [Yaml.pretty, Bool.false_eq_true, if_false] at hi ⊢
    split
    · exact .inlineHash (by simp)
    · rename_i h; rw [if_neg h] at hi; simp [isInlineable] at hi
  | hIA es ih =>
    simp only [Yaml.pretty, prettyYamls_eq]
    refine .inlineArray fun v hv => ?_
    obtain ⟨w, hw, rfl⟩ := List.mem_map.1 hv
    exact allPlain_pretty_inline _ _
  | hA ds ih =>
    simp only [Yaml.pretty, Bool.false_eq_true, if_false] at hi ⊢
    split
    · exact .inlineArray (by simp)
    · rename_i h
      rw [if_neg h] at hi
      revert hi
      unfold autoInline
      split
      · rename_i hc
        intro _
        simp only [Bool.and_eq_true, List.all_eq_true] at hc
        replace hc := hc.1.2
        simp only [arrayDataValues_eq, prettyArrayData_eq] at hc ⊢
        refine .inlineArray fun v hv => ?_
        obtain ⟨a, ha⟩ := ArrayData.mem_value.1 hv
        have hin := hc _ ha
        simp only [arrayDataInlineable, Bool.and_eq_true] at hin
        obtain ⟨w, hmem, rfl⟩ := mem_map_onValue_array.1 ha
        cases hw with
        | array h1 h2 =>
          exact ih a w hmem _ (h1 a w hmem) hin.2 (fun s hs => h2 a s (hs ▸ hmem))
      · intro hi; simp [isInlineable] at hi
  | hS ps =>
    simp only [Yaml.pretty] at hi ⊢
    rcases prettySingleQuoted_cases false ps with
      ⟨ls, ch, h⟩ | ⟨_, s, h, hb⟩ | ⟨_, ls, ch, h⟩ | ⟨h, h'⟩ <;> rw [h] <;> constructor
    exact (inlineBreakingChars_iff _).1 hb
  | hD ps =>
    simp only [Yaml.pretty] at hi ⊢
    rcases prettyDoubleQuoted_cases false ps with ⟨ls, ch, h⟩ | ⟨ls, ch, h⟩ | h <;> rw [h] <;>
      constructor
  | hU s =>
    simp only [Yaml.pretty, Bool.false_and, Bool.false_eq_true, if_false]
    exact .unquotedString (hs s rfl)
  | hF ls c => exact .foldedString _ _
  | hL ls c => exact .literalString _ _
  | hN a => exact .anchor _

theorem fit_pretty (y : Yaml) (c : Bool) (h : FlowFitInArrays y) :
    FlowFitInFlow (y.pretty false c) := by
  induction y using Yaml.induct generalizing c with
  | hIH es ih =>
    simp only [Yaml.pretty, prettyEntries_eq]
    refine .inlineHash fun k v hv => ?_
    simp only [List.mem_map] at hv
    obtain ⟨⟨k', v'⟩, h, he⟩ := hv
    simp at he; rw [← he.2]; exact allPlain_pretty_inline _ _
  | hH ds ih =>
    simp only [Yaml.pretty, Bool.false_eq_true, if_false]
    split
    · exact .inlineHash (by simp)
    · simp only [prettyHashData_eq]
      refine .hash fun k a v hv => ?_
      obtain ⟨w, hw, rfl⟩ := mem_map_onValue_hash.1 hv
      cases h with
      | hash h => exact ih k a w hw _ (h k a w hw)
  | hIA es ih =>
    simp only [Yaml.pretty, prettyYamls_eq]
    refine .inlineArray fun v hv => ?_
    obtain ⟨w, hw, rfl⟩ := List.mem_map.1 hv
    exact allPlain_pretty_inline _ _
  | hA ds ih =>
    simp only [Yaml.pretty, Bool.false_eq_true, if_false]
    split
    · exact .inlineArray (by simp)
    · cases h with
      | array h1 h2 =>
        unfold autoInline
        split
        · rename_i hc
          simp only [Bool.and_eq_true, List.all_eq_true] at hc
          replace hc := hc.1.2
          simp only [arrayDataValues_eq, prettyArrayData_eq] at hc ⊢
          refine .inlineArray fun v hv => ?_
          obtain ⟨a, ha⟩ := ArrayData.mem_value.1 hv
          have hin := hc _ ha
          simp only [arrayDataInlineable, Bool.and_eq_true] at hin
          obtain ⟨w, hmem, rfl⟩ := mem_map_onValue_array.1 ha
          exact allPlain_inlined w _ (h1 a w hmem) hin.2 (fun s hs => h2 a s (hs ▸ hmem))
        · simp only [prettyArrayData_eq]
          refine .array fun a v hv => ?_
          obtain ⟨w, hw, rfl⟩ := mem_map_onValue_array.1 hv
          exact ih a w hw _ (h1 a w hw)
  | hS ps =>
    simp only [Yaml.pretty, prettySingleQuoted]
    repeat' split
    all_goals constructor
  | hD ps =>
    simp only [Yaml.pretty, prettyDoubleQuoted]
    repeat' split
    all_goals constructor
  | hU s =>
    simp only [Yaml.pretty]
    split <;> constructor
  | hF ls c => exact .foldedString _ _
  | hL ls c => exact .literalString _ _
  | hN a => exact .anchor _

end YamlSubset
