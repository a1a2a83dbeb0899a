import Verif.Lemmas.PrettyIdem

/-! # Lemmas: `pretty` changes nothing any more the third time -/

namespace YamlSubset

open Spec

/-- What occurs inside flow collections after `pretty`: no block collections, and no blank lines in single-quoted scalars. -/
inductive FlowStable : Yaml → Prop
  | inlineHash {es} (h : ∀ k v, (k, v) ∈ es → FlowStable v) : FlowStable (.inlineHash es)
  | inlineArray {es} (h : ∀ v, v ∈ es → FlowStable v) : FlowStable (.inlineArray es)
  | singleQuotedString {ps} (h : prettySingleQuoted true ps = .singleQuotedString ps) : FlowStable (.singleQuotedString ps)
  | doubleQuotedString (ps) : FlowStable (.doubleQuotedString ps)
  | unquotedString (s) : FlowStable (.unquotedString s)
  | foldedString (ls c) : FlowStable (.foldedString ls c)
  | literalString (ls c) : FlowStable (.literalString ls c)
  | anchor (a) : FlowStable (.anchor a)

theorem flowStable_pretty (y : Yaml) (c : Bool) : FlowStable (y.pretty true c) := by
  induction y using Yaml.induct generalizing c with
  | hIH es ih =>
    simp only [Yaml.pretty, prettyEntries_eq]
    refine .inlineHash fun k v hv => ?_
    simp only [List.mem_map] at hv
    obtain ⟨⟨k', v'⟩, h, he⟩ := hv
    simp at he; rw [← he.2]; exact ih k' v' h _
  | hH ds ih =>
    simp only [Yaml.pretty]
    split
    · exact .inlineHash (by simp)
    · simp only [if_true, hashToEntries_eq]
      refine .inlineHash fun k v hv => ?_
      simp only [List.mem_map] at hv
      obtain ⟨⟨k', v'⟩, h, he⟩ := hv
      obtain ⟨a, ha⟩ := HashData.mem_entry.1 h
      simp at he; rw [← he.2]; exact ih k' a v' ha _
  | hIA es ih =>
    simp only [Yaml.pretty, prettyYamls_eq]
    refine .inlineArray fun v hv => ?_
    obtain ⟨w, hw, rfl⟩ := List.mem_map.1 hv
    exact ih w hw _
  | hA ds ih =>
    simp only [Yaml.pretty]
    split
    · exact .inlineArray (by simp)
    · simp only [if_true, arrayToYamls_eq]
      refine .inlineArray fun v hv => ?_
      obtain ⟨w, hw, rfl⟩ := List.mem_map.1 hv
      obtain ⟨a, ha⟩ := ArrayData.mem_value.1 hw
      exact ih a w ha _
  | hS ps =>
    simp only [Yaml.pretty]
    rcases prettySingleQuoted_cases true ps with ⟨ls, ch, h⟩ | ⟨h, _⟩ | ⟨h, _⟩ | ⟨h, _⟩
    · rw [h]; constructor
    · cases h
    · cases h
    · rw [h]; exact .singleQuotedString h
  | hD ps => exact .doubleQuotedString _
  | hU s =>
    simp only [Yaml.pretty, Bool.true_and]
    split
    · refine .singleQuotedString ?_
      have := pretty_inline_idem (.unquotedString s) false false
      simp only [Yaml.pretty, Bool.true_and] at this
      rename_i h
      rw [if_pos h] at this
      simpa only [Yaml.pretty] using this
    · exact .unquotedString _
  | hF ls c => exact .foldedString _ _
  | hL ls c => exact .literalString _ _
  | hN a => exact .anchor _

/-- What `pretty` leaves in a sequence that it may write in flow style. -/
theorem flowStable_inlineable (w : Yaml) (c : Bool) (hi : isInlineable (w.pretty false c) = true) : FlowStable (w.pretty false c) := by
  induction w using Yaml.induct generalizing c with
  | hIH es ih =>
    have : (Yaml.inlineHash es).pretty false c = (Yaml.inlineHash es).pretty true c := by simp only [Yaml.pretty]
    rw [this]; exact flowStable_pretty _ _
  | hH ds ih =>
    simp only [Yaml.pretty, Bool.false_eq_true, if_false] at hi ⊢
    split
    · exact .inlineHash (by simp)
    · rename_i h; rw [if_neg h] at hi; simp [isInlineable] at hi
  | hIA es ih =>
    have : (Yaml.inlineArray es).pretty false c = (Yaml.inlineArray es).pretty true c := by simp only [Yaml.pretty]
    rw [this]; exact flowStable_pretty _ _
  | hA ds ih =>
    simp only [Yaml.pretty, Bool.false_eq_true, if_false] at hi ⊢
    split
    · exact .inlineArray (by simp)
    · rename_i h
      rw [if_neg h] at hi
      revert hi
      unfold autoInline
      split
      · rename_i hc
        intro _
        simp only [Bool.and_eq_true, List.all_eq_true] at hc
        replace hc := hc.1.2
        simp only [arrayDataValues_eq, prettyArrayData_eq] at hc ⊢
        refine .inlineArray fun v hv => ?_
        obtain ⟨a, ha⟩ := ArrayData.mem_value.1 hv
        have hin := hc _ ha
        simp only [arrayDataInlineable, Bool.and_eq_true] at hin
        obtain ⟨w, hmem, rfl⟩ := mem_map_onValue_array.1 ha
        exact ih a w hmem _ hin.2
      · intro hi; simp [isInlineable] at hi
  | hS ps =>
    simp only [Yaml.pretty] at hi ⊢
    rcases prettySingleQuoted_cases false ps with
      ⟨ls, ch, h⟩ | ⟨_, s, h, hb⟩ | ⟨_, ls, ch, h⟩ | ⟨h, h'⟩ <;> rw [h]
    · constructor
    · constructor
    · constructor
    · exact .singleQuotedString h'
  | hD ps =>
    simp only [Yaml.pretty] at hi ⊢
    rcases prettyDoubleQuoted_cases false ps with ⟨ls, ch, h⟩ | ⟨ls, ch, h⟩ | h <;> rw [h] <;>
      constructor
  | hU s =>
    simp only [Yaml.pretty, Bool.false_and, Bool.false_eq_true, if_false]
    exact .unquotedString s
  | hF ls c => exact .foldedString _ _
  | hL ls c => exact .literalString _ _
  | hN a => exact .anchor _

/-! ## quoting makes longer -/

theorem strToSQPartsAux_length (s : Str) (parts : List SQPart) (buf : Str) :
    byteLen (parts.flatMap SQPart.format) + byteLen buf + byteLen s ≤ byteLen ((strToSQPartsAux parts buf s).flatMap SQPart.format) := by
  induction s generalizing parts buf with
  | nil =>
    cases buf with
    | nil => simp [strToSQPartsAux, byteLen]
    | cons c cs => simp [strToSQPartsAux, List.flatMap_append, byteLen_append, SQPart.format, byteLen]
  | cons x xs ih =>
    simp only [strToSQPartsAux]
    split
    · rename_i hx
      subst hx
      refine Nat.le_trans ?_ (ih _ _)
      cases buf with
      | nil => simp [List.flatMap_append, byteLen_append, SQPart.format, byteLen, SQEscapedChar.char]; omega
      | cons c cs => simp [List.flatMap_append, byteLen_append, SQPart.format, byteLen, SQEscapedChar.char]; omega
    · refine Nat.le_trans ?_ (ih _ _)
      rw [byteLen_append]
      simp [byteLen]
      omega

theorem formatInlineElements_length {es : List Yaml} {f : Yaml → Yaml} (h : ∀ v ∈ es, byteLen (v.format 0 none) ≤ byteLen ((f v).format 0 none)) (b : Bool) :
    byteLen (formatInlineElements b es) ≤ byteLen (formatInlineElements b (es.map f)) := by
  induction es generalizing b with
  | nil => simp
  | cons v t ih =>
    simp only [List.map_cons, formatInlineElements, byteLen_append]
    have h1 := h v (by simp)
    have h2 := ih (fun v hv => h v (by simp [hv])) false
    omega

theorem formatInlineEntries_length {es : List (Str × Yaml)} {f : Yaml → Yaml} (h : ∀ k v, (k, v) ∈ es → byteLen (v.format 0 none) ≤ byteLen ((f v).format 0 none)) (b : Bool) :
    byteLen (formatInlineEntries b es) ≤ byteLen (formatInlineEntries b (es.map fun e => (e.1, f e.2))) := by
  induction es generalizing b with
  | nil => simp
  | cons e t ih =>
    obtain ⟨k, v⟩ := e
    simp only [List.map_cons, formatInlineEntries, byteLen_append]
    have h1 := h k v (by simp)
    have h2 := ih (fun k v hv => h k v (by simp [hv])) false
    have h3 : ∀ (u : Str), byteLen (' ' :: (k ++ ':' :: u)) = byteLen k + byteLen u + 2 := by
      intro u
      have e1 : (' ' :: (k ++ ':' :: u)) = [' '] ++ (k ++ ([':'] ++ u)) := by simp
      rw [e1, byteLen_append, byteLen_append, byteLen_append]
      have : byteLen [' '] = 1 := by decide
      have : byteLen [':'] = 1 := by decide
      omega
    rw [h3, h3]
    omega

theorem flowStable_length (y : Yaml) (c : Bool) (h : FlowStable y) : byteLen (y.format 0 none) ≤ byteLen ((y.pretty true c).format 0 none) := by
  induction y using Yaml.induct generalizing c with
  | hIH es ih =>
    cases h with
    | inlineHash h =>
      simp only [Yaml.pretty, prettyEntries_eq, Yaml.format, byteLen_append]
      have := formatInlineEntries_length (es := es) (f := Yaml.pretty true false) (fun k v hv => ih k v hv false (h k v hv)) true
      have e : (es.map fun e => (e.1, Yaml.pretty true false e.2)).isEmpty = es.isEmpty := by cases es <;> rfl
      rw [e]
      omega
  | hH ds ih => cases h
  | hIA es ih =>
    cases h with
    | inlineArray h =>
      simp only [Yaml.pretty, prettyYamls_eq, Yaml.format, byteLen_append]
      have := formatInlineElements_length (es := es) (f := Yaml.pretty true false) (fun v hv => ih v hv false (h v hv)) true
      have e : (es.map (Yaml.pretty true false)).isEmpty = es.isEmpty := by cases es <;> rfl
      rw [e]
      omega
  | hA ds ih => cases h
  | hS ps => cases h with | singleQuotedString h => simp only [Yaml.pretty]; rw [h]; exact Nat.le_refl _
  | hD ps => exact Nat.le_refl _
  | hU s =>
    simp only [Yaml.pretty]
    split
    · have := strToSQPartsAux_length s [] []
      simp only [strToSingleQuotedParts, Yaml.format, byteLen_append]
      simp only [List.flatMap_nil, byteLen, List.map_nil, List.sum_nil, List.map_cons, List.sum_cons] at this ⊢
      have h1 : ' '.utf8Size = 1 := by decide
      have h2 : '\''.utf8Size = 1 := by decide
      omega
    · exact Nat.le_refl _
  | hF ls c => exact Nat.le_refl _
  | hL ls c => exact Nat.le_refl _
  | hN a => exact Nat.le_refl _

/-! ## no sequence is put on one line the second time -/

theorem pretty_again_length (w : Yaml) (c c' : Bool) (hi : isInlineable (w.pretty false c) = true) :
    byteLen ((w.pretty false c).format 0 none) ≤ byteLen (((w.pretty false c).pretty false c').format 0 none) := by
  have hs := flowStable_inlineable w c hi
  generalize hz : w.pretty false c = z at *
  cases z with
  | inlineHash es =>
    have : (Yaml.inlineHash es).pretty false c' = (Yaml.inlineHash es).pretty true c' := by simp only [Yaml.pretty]
    rw [this]; exact flowStable_length _ _ hs
  | inlineArray es =>
    have : (Yaml.inlineArray es).pretty false c' = (Yaml.inlineArray es).pretty true c' := by simp only [Yaml.pretty]
    rw [this]; exact flowStable_length _ _ hs
  | unquotedString s => exact Nat.le_refl _
  | doubleQuotedString ps =>
    have : (Yaml.doubleQuotedString ps).pretty false c' = .doubleQuotedString ps := by
      cases w with
      | doubleQuotedString qs =>
        simp only [Yaml.pretty] at hz ⊢
        rcases prettyDoubleQuoted_cases false qs with ⟨ls, ch, h⟩ | ⟨ls, ch, h⟩ | h
        · rw [h] at hz; simp at hz
        · rw [h] at hz; simp at hz
        · rw [h] at hz; simp at hz; subst hz; exact h
      | singleQuotedString qs =>
        simp only [Yaml.pretty] at hz
        rcases prettySingleQuoted_cases false qs with ⟨ls, ch, h⟩ | ⟨_, s, h, hb⟩ | ⟨_, ls, ch, h⟩ | ⟨h, h'⟩ <;> rw [h] at hz <;> simp at hz
      | array ds =>
        simp only [Yaml.pretty, autoInline] at hz
        repeat' split at hz
        all_goals simp at hz
      | hash ds =>
        simp only [Yaml.pretty] at hz
        repeat' split at hz
        all_goals simp at hz
      | unquotedString s => simp [Yaml.pretty] at hz
      | _ => simp [Yaml.pretty] at hz
    rw [this]; exact Nat.le_refl _
  | singleQuotedString ps =>
    have : (Yaml.singleQuotedString ps).pretty false c' = .singleQuotedString ps := by
      cases w with
      | doubleQuotedString qs =>
        simp only [Yaml.pretty] at hz
        rcases prettyDoubleQuoted_cases false qs with ⟨ls, ch, h⟩ | ⟨ls, ch, h⟩ | h <;> rw [h] at hz <;> simp at hz
      | singleQuotedString qs =>
        simp only [Yaml.pretty] at hz ⊢
        rcases prettySingleQuoted_cases false qs with ⟨ls, ch, h⟩ | ⟨_, s, h, hb⟩ | ⟨_, ls, ch, h⟩ | ⟨h, h'⟩
        · rw [h] at hz; simp at hz
        · rw [h] at hz; simp at hz
        · rw [h] at hz; simp at hz
        · rw [h] at hz; simp at hz; subst hz; exact h
      | array ds =>
        simp only [Yaml.pretty, autoInline] at hz
        repeat' split at hz
        all_goals simp at hz
      | hash ds =>
        simp only [Yaml.pretty] at hz
        repeat' split at hz
        all_goals simp at hz
      | unquotedString s => simp [Yaml.pretty] at hz
      | _ => simp [Yaml.pretty] at hz
    rw [this]; exact Nat.le_refl _
  | _ => simp [isInlineable] at hi

/-- If no sequence is put on one line the second time, then nothing becomes fit for a flow sequence. -/
theorem inlineable_again (w : Yaml) (c : Bool) (h : ∀ ds, w.pretty false c = .array ds → ∃ ds', (w.pretty false c).pretty false c = .array ds')
    (hi : isInlineable ((w.pretty false c).pretty false c) = true) : isInlineable (w.pretty false c) = true := by
  have scalar : ∀ (z : Yaml), (∀ ds, z ≠ .array ds) → (∀ ds, z = .hash ds → ds ≠ []) → (isInlineable (z.pretty false c) = true → isInlineable z = true) := by
    intro z h1 h2 hi
    cases z with
    | array ds => exact absurd rfl (h1 ds)
    | hash ds =>
      simp only [Yaml.pretty, Bool.false_eq_true, if_false] at hi
      rw [if_neg (by simpa using h2 ds rfl)] at hi
      simp [isInlineable] at hi
    | literalString => simp [Yaml.pretty, isInlineable] at hi
    | foldedString => simp [Yaml.pretty, isInlineable] at hi
    | anchor => simp [Yaml.pretty, isInlineable] at hi
    | _ => rfl
  have hashNe : ∀ (w : Yaml) ds, w.pretty false c = .hash ds → ds ≠ [] := by
    intro w ds h
    cases w with
    | hash es =>
      simp only [Yaml.pretty, Bool.false_eq_true, if_false] at h
      split at h
      · simp at h
      · rename_i hne
        simp only [Yaml.hash.injEq, prettyHashData_eq] at h
        rintro rfl
        simp at h
        simp [h] at hne
    | array es =>
      simp only [Yaml.pretty, autoInline] at h
      repeat' split at h
      all_goals simp at h
    | singleQuotedString qs =>
      simp only [Yaml.pretty] at h
      rcases prettySingleQuoted_cases false qs with ⟨ls, ch, h'⟩ | ⟨_, s, h', hb⟩ | ⟨_, ls, ch, h'⟩ | ⟨h', _⟩ <;> rw [h'] at h <;> simp at h
    | doubleQuotedString qs =>
      simp only [Yaml.pretty] at h
      rcases prettyDoubleQuoted_cases false qs with ⟨ls, ch, h'⟩ | ⟨ls, ch, h'⟩ | h' <;> rw [h'] at h <;> simp at h
    | unquotedString s => simp [Yaml.pretty] at h
    | _ => simp [Yaml.pretty] at h
  refine scalar _ (fun ds hds => ?_) (hashNe w) hi
  obtain ⟨ds', hd⟩ := h ds hds
  rw [hd] at hi
  simp [isInlineable] at hi

/-- A sequence that stays in block style the first time stays in block style the second time. -/
theorem array_stays (w : Yaml) (c : Bool) (ds : List ArrayData) (h : w.pretty false c = .array ds) : (w.pretty false c).pretty false c = .array (prettyArrayData ds) := by
  induction w using Yaml.induct generalizing c ds with
  | hA es ih =>
    simp only [Yaml.pretty, Bool.false_eq_true, if_false] at h
    split at h
    · simp at h
    · rename_i hne
      have hA : (Yaml.array es).pretty false c = autoInline c (prettyArrayData es) := by
        simp only [Yaml.pretty, Bool.false_eq_true, if_false]; rw [if_neg hne]
      rw [hA, h]
      unfold autoInline at h
      split at h
      · simp at h
      · rename_i hc
        simp only [Yaml.array.injEq, prettyArrayData_eq] at h hc
        subst h
        simp only [Yaml.pretty, Bool.false_eq_true, if_false]
        rw [if_neg (by simpa using hne), prettyArrayData_eq]
        unfold autoInline
        rw [if_neg]
        intro hd
        apply hc
        simp only [Bool.and_eq_true, decide_eq_true_eq] at hd ⊢
        refine ⟨⟨hd.1.1, ?_⟩, ?_⟩
        · have hd2 := hd.1.2
          rw [List.all_eq_true] at hd2 ⊢
          intro x hx
          have := hd2 _ (List.mem_map.2 ⟨x, hx, rfl⟩)
          match x with
          | .comment _ => simp [ArrayData.onValue, arrayDataInlineable] at this
          | .inlineComment _ => simp [ArrayData.onValue, arrayDataInlineable] at this
          | .element ⟨a, v⟩ =>
            simp only [ArrayData.onValue, arrayDataInlineable, Bool.and_eq_true] at this ⊢
            refine ⟨this.1, ?_⟩
            obtain ⟨u, hu, rfl⟩ := mem_map_onValue_array.1 hx
            exact inlineable_again u true (fun ds hds => ⟨_, ih a u hu true ds hds⟩) this.2
        · refine Nat.le_trans ?_ hd.2
          rw [arrayDataValues_eq, arrayDataValues_eq, ArrayData.onValue_value, ArrayData.onValue_value, ArrayData.onValue_value]
          simp only [Yaml.format, byteLen_append]
          have hd2 := hd.1.2
          rw [List.all_eq_true] at hd2
          have := formatInlineElements_length (es := (es.filterMap ArrayData.value?).map (Yaml.pretty false true)) (f := Yaml.pretty false true) (fun v hv => by
            obtain ⟨u, hu, rfl⟩ := List.mem_map.1 hv
            obtain ⟨a, ha⟩ := ArrayData.mem_value.1 hu
            have h1 := hd2 _ (List.mem_map.2 ⟨_, mem_map_onValue_array.2 ⟨u, ha, rfl⟩, rfl⟩)
            simp only [ArrayData.onValue, arrayDataInlineable, Bool.and_eq_true] at h1
            exact pretty_again_length u true true (inlineable_again u true (fun ds hds => ⟨_, ih a u ha true ds hds⟩) h1.2)) true
          simp only [List.isEmpty_map]
          omega
  | hIH es ih => simp [Yaml.pretty] at h
  | hH ds ih =>
    simp only [Yaml.pretty] at h
    repeat' split at h
    all_goals simp at h
  | hIA es ih => simp [Yaml.pretty] at h
  | hS ps =>
    simp only [Yaml.pretty] at h
    rcases prettySingleQuoted_cases false ps with ⟨ls, ch, h'⟩ | ⟨_, s, h', hb⟩ | ⟨_, ls, ch, h'⟩ | ⟨h', _⟩ <;> rw [h'] at h <;> simp at h
  | hD ps =>
    simp only [Yaml.pretty] at h
    rcases prettyDoubleQuoted_cases false ps with ⟨ls, ch, h'⟩ | ⟨ls, ch, h'⟩ | h' <;> rw [h'] at h <;> simp at h
  | hU s => simp [Yaml.pretty] at h
  | hF ls c => simp [Yaml.pretty] at h
  | hL ls c => simp [Yaml.pretty] at h
  | hN a => simp [Yaml.pretty] at h

/-- After the second time, plain scalars inside flow collections contain no flow indicators. -/
theorem fit_twice (y : Yaml) (c : Bool) : FlowFitInFlow ((y.pretty false c).pretty false c) := by
  have flowHash : ∀ es c, FlowFitInFlow ((Yaml.inlineHash es).pretty false c) := by
    intro es c
    simp only [Yaml.pretty, prettyEntries_eq]
    refine .inlineHash fun k v hv => ?_
    simp only [List.mem_map] at hv
    obtain ⟨⟨k', v'⟩, h, he⟩ := hv
    simp at he; rw [← he.2]; exact allPlain_pretty_inline _ _
  have flowArray : ∀ es c, FlowFitInFlow ((Yaml.inlineArray es).pretty false c) := by
    intro es c
    simp only [Yaml.pretty, prettyYamls_eq]
    refine .inlineArray fun v hv => ?_
    obtain ⟨w, hw, rfl⟩ := List.mem_map.1 hv
    exact allPlain_pretty_inline _ _
  induction y using Yaml.induct generalizing c with
  | hIH es ih => simp only [Yaml.pretty]; exact flowHash _ c
  | hIA es ih => simp only [Yaml.pretty]; exact flowArray _ c
  | hH ds ih =>
    by_cases hne : ds.isEmpty = true
    · have : (Yaml.hash ds).pretty false c = .inlineHash [] := by simp only [Yaml.pretty]; rw [if_pos hne]
      rw [this]; exact flowHash _ _
    · have h1 : (Yaml.hash ds).pretty false c = .hash (ds.map (HashData.onValue (Yaml.pretty false false))) := by
        simp only [Yaml.pretty, Bool.false_eq_true, if_false, prettyHashData_eq]; rw [if_neg hne]
      rw [h1]
      simp only [Yaml.pretty, Bool.false_eq_true, if_false, prettyHashData_eq]
      rw [if_neg (by simpa using hne)]
      refine .hash fun k a v hv => ?_
      obtain ⟨w, hw, rfl⟩ := mem_map_onValue_hash.1 hv
      obtain ⟨u, hu, rfl⟩ := mem_map_onValue_hash.1 hw
      exact ih k a u hu false
  | hA ds ih =>
    generalize hz : (Yaml.array ds).pretty false c = z
    have hz' := hz
    simp only [Yaml.pretty, Bool.false_eq_true, if_false] at hz
    split at hz
    · rw [← hz]; exact flowArray _ _
    · rename_i hne
      have hz0 := hz
      unfold autoInline at hz
      split at hz
      · rw [← hz]; exact flowArray _ _
      · subst hz
        have := array_stays (.array ds) c _ hz'
        rw [hz'] at this
        rw [this, prettyArrayData_eq, prettyArrayData_eq]
        refine .array fun a v hv => ?_
        obtain ⟨w, hw, rfl⟩ := mem_map_onValue_array.1 hv
        obtain ⟨u, hu, rfl⟩ := mem_map_onValue_array.1 hw
        exact ih a u hu true
  | hS ps =>
    simp only [Yaml.pretty]
    rcases prettySingleQuoted_cases false ps with ⟨ls, ch, h⟩ | ⟨_, s, h, hb⟩ | ⟨_, ls, ch, h⟩ | ⟨h, _⟩ <;> rw [h]
    · constructor
    · simp only [Yaml.pretty, Bool.false_and, Bool.false_eq_true, if_false]; constructor
    · constructor
    · simp only [Yaml.pretty]; rw [h]; constructor
  | hD ps =>
    simp only [Yaml.pretty]
    rcases prettyDoubleQuoted_cases false ps with ⟨ls, ch, h⟩ | ⟨ls, ch, h⟩ | h <;> rw [h]
    · constructor
    · constructor
    · simp only [Yaml.pretty]; rw [h]; constructor
  | hU s => simp only [Yaml.pretty, Bool.false_and, Bool.false_eq_true, if_false]; constructor
  | hF ls c => simp only [Yaml.pretty]; constructor
  | hL ls c => simp only [Yaml.pretty]; constructor
  | hN a => simp only [Yaml.pretty]; constructor

theorem pretty_thrice (y : Yaml) (c : Bool) : ((y.pretty false c).pretty false c).pretty false c = (y.pretty false c).pretty false c :=
  pretty_idem_of_fit _ c (fit_twice y c)

end YamlSubset
