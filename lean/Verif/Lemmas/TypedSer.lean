import Verif.Lemmas.Typed
import Verif.Props.Strings
import Verif.Props.Pretty

/-! # Serialized trees represent the value, before and after `pretty` -/

namespace YamlSubset

open Spec

/-! ## Texts of numbers -/

theorem inlineBreaking_of_floatChars {s : Str} (h : s.all floatChar = true) : inlineBreakingChars s = false := by
  have hn : ∀ c, floatChar c = false → s.contains c = false := by
    intro c hc
    rw [List.contains_eq_mem, decide_eq_false_iff_not]
    intro hm
    rw [List.all_eq_true] at h
    rw [h c hm] at hc
    exact absurd hc (by decide)
  simp only [inlineBreakingChars]
  rw [hn ',' (by decide), hn '[' (by decide), hn ']' (by decide), hn '{' (by decide), hn '}' (by decide),
    hn '"' (by decide), hn '>' (by decide), hn '|' (by decide)]
  rfl

theorem floatChar_of_digit {c : Char} (h : isDigit c = true) : floatChar c = true := by
  simp [floatChar, h]

theorem natToStr_floatChars (n : Nat) : (natToStr n).all floatChar = true := by
  have := natToStr_all n
  rw [List.all_eq_true] at this ⊢
  exact fun c hc => floatChar_of_digit (this c hc)

theorem intToStr_floatChars (i : Int) : (intToStr i).all floatChar = true := by
  cases i with
  | ofNat n => exact natToStr_floatChars n
  | negSucc n =>
    simp only [intToStr, List.all_cons, natToStr_floatChars, Bool.and_true]
    decide

theorem isNullWord_iff {s : Str} :
    isNullWord s = true ↔ s = c!"~" ∨ s = c!"null" ∨ s = c!"Null" ∨ s = c!"NULL" := by
  simp [isNullWord, or_assoc]

theorem isNullWord_of_f64 {s : Str} (h : isF64 s = true) : isNullWord s = false := by
  rw [Bool.eq_false_iff]
  intro hw
  rcases isNullWord_iff.1 hw with rfl | rfl | rfl | rfl <;> exact absurd h (by decide)

theorem isNullWord_intToStr (i : Int) : isNullWord (intToStr i) = false := by
  rw [Bool.eq_false_iff]
  intro hw
  have h := intToStr_floatChars i
  rcases isNullWord_iff.1 hw with hw | hw | hw | hw <;> rw [hw] at h <;> exact absurd h (by decide)

/-! ## Strings -/

/-- A null word becomes plain only if it is one of the two that are not recognized. -/
theorem strToYaml_null {s : Str} (hw : isNullWord s = true) :
    (s = c!"Null" ∨ s = c!"NULL") ∨
      (plainOf (strToYaml s) = none ∧ canBeUnquotedInBlock s = false) := by
  rcases isNullWord_iff.1 hw with rfl | rfl | rfl | rfl
  · exact .inr ⟨rfl, by decide⟩
  · exact .inr ⟨rfl, by decide⟩
  · exact .inl (.inl rfl)
  · exact .inl (.inr rfl)

theorem refOf_strToYaml (s : Str) : refOf (strToYaml s) = none := by
  unfold strToYaml
  split
  · rfl
  · split
    · split <;> rfl
    · rfl

/-! ## Lists of serialized values -/

theorem serList_map {α : Type} (f : α → SVal) {qs : List α} {ys : List Yaml}
    (h : serList (qs.map f) = some ys) :
    ∃ ps : List (α × Yaml), ps.map (fun p => p.1) = qs ∧ ps.map (fun p => p.2) = ys ∧
      ∀ p ∈ ps, (f p.1).ser = some p.2 := by
  induction qs generalizing ys with
  | nil => simp [serList] at h; exact ⟨[], rfl, by simpa using h, by simp⟩
  | cons q t ih =>
    simp only [List.map_cons, serList] at h
    cases hq : (f q).ser with
    | none => simp [hq] at h
    | some y =>
      rw [hq] at h
      simp only [Option.map_eq_some_iff] at h
      obtain ⟨zs, hz, rfl⟩ := h
      obtain ⟨ps, rfl, rfl, hp⟩ := ih hz
      refine ⟨(q, y) :: ps, rfl, rfl, fun p hm => ?_⟩
      rcases List.mem_cons.1 hm with rfl | hm
      · exact hq
      · exact hp p hm

theorem serFields_map {α : Type} (g : α → Str) (f : α → SVal) {qs : List α} {ys : List (Str × Yaml)}
    (h : serFields (qs.map fun q => (g q, f q)) = some ys) :
    ∃ ps : List (α × Yaml), ps.map (fun p => p.1) = qs ∧ ps.map (fun p => (g p.1, p.2)) = ys ∧
      ∀ p ∈ ps, (f p.1).ser = some p.2 := by
  induction qs generalizing ys with
  | nil => simp [serFields] at h; exact ⟨[], rfl, by simpa using h, by simp⟩
  | cons q t ih =>
    simp only [List.map_cons, serFields] at h
    cases hq : (f q).ser with
    | none => simp [hq] at h
    | some y =>
      rw [hq] at h
      simp only [Option.map_eq_some_iff] at h
      obtain ⟨zs, hz, rfl⟩ := h
      obtain ⟨ps, rfl, rfl, hp⟩ := ih hz
      refine ⟨(q, y) :: ps, rfl, rfl, fun p hm => ?_⟩
      rcases List.mem_cons.1 hm with rfl | hm
      · exact hq
      · exact hp p hm

theorem serEntries_map {qs : List (SVal × SVal)} {ys : List (Str × Yaml)} (h : serEntries qs = some ys) :
    ∃ ps : List (SVal × Str × SVal × Yaml), ps.map (fun p => (p.1, p.2.2.1)) = qs ∧
      ps.map (fun p => (p.2.1, p.2.2.2)) = ys ∧
      ∀ p ∈ ps, p.1.ser.bind yamlToKeyString = some p.2.1 ∧ p.2.2.1.ser = some p.2.2.2 := by
  induction qs generalizing ys with
  | nil => simp [serEntries] at h; exact ⟨[], rfl, by simpa using h, by simp⟩
  | cons q t ih =>
    obtain ⟨k, v⟩ := q
    simp only [serEntries] at h
    cases hk : k.ser.bind yamlToKeyString with
    | none => simp [hk] at h
    | some ks =>
      rw [hk] at h
      simp only at h
      cases hq : v.ser with
      | none => simp [hq] at h
      | some y =>
        rw [hq] at h
        simp only [Option.map_eq_some_iff] at h
        obtain ⟨zs, hz, rfl⟩ := h
        obtain ⟨ps, rfl, rfl, hp⟩ := ih hz
        refine ⟨(k, ks, v, y) :: ps, rfl, rfl, fun p hm => ?_⟩
        rcases List.mem_cons.1 hm with rfl | hm
        · exact ⟨hk, hq⟩
        · exact hp p hm

theorem seqValues_seqNode (σ : Anchors) (ys : List Yaml) :
    seqValues σ (ys.map fun y => .element ⟨none, y⟩) = (ys, σ) := by
  induction ys with
  | nil => rfl
  | cons y t ih => simp only [List.map_cons, seqValues, register, ih]

theorem asSeq_seqNode (σ : Anchors) (ys : List Yaml) : asSeq σ (seqNode ys) = some (ys, σ) := by
  rw [seqNode, asSeq, seqValues_seqNode]

theorem hashEntries_mapNode (σ : Anchors) (es : List (Str × Yaml)) :
    hashEntries σ (es.map fun kv => .element ⟨kv.1, ⟨none, kv.2⟩⟩) = (es, σ) := by
  induction es with
  | nil => rfl
  | cons y t ih => simp only [List.map_cons, hashEntries, register, ih]

theorem asMap_mapNode (σ : Anchors) (es : List (Str × Yaml)) : asMap σ (mapNode es) = some (es, σ) := by
  rw [mapNode, asMap, hashEntries_mapNode]

/-! ## Serialized trees -/

theorem refOf_ser {Γ : Nat → Ty} {ty : Ty} {v : SVal} (ht : HasTy Γ ty v) {y : Yaml} (h : v.ser = some y) :
    refOf y = none := by
  induction ht generalizing y with
  | bool => simp [SVal.ser] at h; subst h; rfl
  | int => simp [SVal.ser] at h; subst h; rfl
  | float => simp [SVal.ser] at h; subst h; rfl
  | char => simp [SVal.ser] at h; subst h; exact refOf_strToYaml _
  | str => simp [SVal.ser] at h; subst h; exact refOf_strToYaml _
  | bytes => simp [SVal.ser] at h; subst h; rfl
  | unit => simp [SVal.ser] at h; subst h; rfl
  | none => simp [SVal.ser] at h; subst h; rfl
  | some _ ih => exact ih (by simpa [SVal.ser] using h)
  | newtype _ ih => exact ih (by simpa [SVal.ser] using h)
  | seq => simp [SVal.ser] at h; obtain ⟨_, _, rfl⟩ := h; rfl
  | tuple => simp [SVal.ser] at h; obtain ⟨_, _, rfl⟩ := h; rfl
  | map => simp [SVal.ser] at h; obtain ⟨_, _, rfl⟩ := h; rfl
  | struct => simp [SVal.ser] at h; obtain ⟨_, _, rfl⟩ := h; rfl
  | unitVariant => simp [SVal.ser] at h; subst h; exact refOf_strToYaml _
  | newtypeVariant _ _ ih => exact ih (by simpa [SVal.ser] using h)
  | tupleVariant => simp [SVal.ser] at h; obtain ⟨_, _, rfl⟩ := h; rfl
  | structVariant => simp [SVal.ser] at h; obtain ⟨_, _, rfl⟩ := h; rfl
  | ref _ ih => exact ih h

theorem notNull_of_strToYaml {s : Str} (h : ¬(s = c!"Null" ∨ s = c!"NULL")) : NotNull (strToYaml s) := by
  intro t ht hw
  rw [C05_serialized_string_value] at ht
  cases ht
  exact (strToYaml_null hw).resolve_left h

theorem Spec.Tilde.lossless {v : SVal} (h : Tilde v) : Lossless v := by
  induction h with
  | unit => exact .unit
  | none => exact .none
  | char => exact .char _
  | str => exact .str _
  | newtype _ ih => exact .newtype ih
  | unitVariant => exact .unitVariant _
  | newtypeVariant h _ => exact .newtypeVariant h

/-- A plain `~` is read as the values it stands for. -/
theorem Spec.Tilde.denotes {Γ : Nat → Ty} {ty : Ty} {v : SVal} (ht : HasTy Γ ty v) (h : Tilde v) :
    Denotes Γ ty v (.unquotedString ['~']) := by
  induction ht with
  | unit => exact .unit rfl
  | none => exact .none rfl
  | char => cases h; exact .char rfl
  | str => cases h; exact .str rfl
  | newtype _ ih => cases h with | newtype h => exact .newtype (ih h)
  | unitVariant hl => cases h; exact .unitVariant hl rfl
  | newtypeVariant hl _ ih => cases h with | newtypeVariant h => exact .newtypeVariant hl rfl (ih h)
  | ref _ ih => exact .ref (ih h)
  | _ => nomatch h

/-- The values that a plain `~` stands for are written with this text. -/
theorem Spec.Tilde.ser {v : SVal} (h : Tilde v) {y : Yaml} (hy : v.ser = some y) : y.asString = some ['~'] := by
  induction h with
  | unit => cases hy; rfl
  | none => cases hy; rfl
  | char => cases hy; exact C05_serialized_string_value _
  | str => cases hy; exact C05_serialized_string_value _
  | newtype _ ih => exact ih (by simpa [SVal.ser] using hy)
  | unitVariant => cases hy; exact C05_serialized_string_value _
  | newtypeVariant h ih => exact ih (by simpa [SVal.ser] using hy)

theorem notNull_ser {Γ : Nat → Ty} {ty : Ty} {v : SVal} (ht : HasTy Γ ty v) (hl : Lossless v)
    (hn : ¬NullLike v) {y : Yaml} (h : v.ser = some y) : NotNull y := by
  induction ht generalizing y with
  | bool b =>
    simp [SVal.ser] at h; subst h
    intro s hs hw
    simp only [Yaml.asString, Option.some.injEq] at hs
    subst hs
    revert hw
    cases b <;> decide
  | int =>
    simp [SVal.ser] at h; subst h
    intro s hs hw
    simp only [Yaml.asString, Option.some.injEq] at hs
    subst hs
    rw [isNullWord_intToStr] at hw; simp at hw
  | float hf =>
    simp [SVal.ser] at h; subst h
    intro s hs hw
    simp only [Yaml.asString, Option.some.injEq] at hs
    subst hs
    rw [isNullWord_of_f64 hf] at hw; simp at hw
  | char c =>
    simp [SVal.ser] at h; subst h
    exact notNull_of_strToYaml (by simp)
  | str s =>
    simp [SVal.ser] at h; subst h
    exact notNull_of_strToYaml fun hs => hn (.str hs)
  | bytes => simp [SVal.ser] at h; subst h; intro s hs; simp [Yaml.asString, seqNode] at hs
  | unit => exact absurd .unit hn
  | none => exact absurd .none hn
  | some _ ih =>
    cases hl with
    | some hl _ => exact ih hl (fun hh => hn (.some hh)) (by simpa [SVal.ser] using h)
  | newtype _ ih =>
    cases hl with
    | newtype hl => exact ih hl (fun hh => hn (.newtype hh)) (by simpa [SVal.ser] using h)
  | seq =>
    simp [SVal.ser] at h; obtain ⟨_, _, rfl⟩ := h
    intro s hs; simp [Yaml.asString, seqNode] at hs
  | tuple =>
    simp [SVal.ser] at h; obtain ⟨_, _, rfl⟩ := h
    intro s hs; simp [Yaml.asString] at hs
  | map =>
    simp [SVal.ser] at h; obtain ⟨_, _, rfl⟩ := h
    intro s hs; simp [Yaml.asString, mapNode] at hs
  | struct =>
    simp [SVal.ser] at h; obtain ⟨_, _, rfl⟩ := h
    intro s hs; simp [Yaml.asString, mapNode] at hs
  | unitVariant =>
    simp [SVal.ser] at h; subst h
    exact notNull_of_strToYaml fun hs => hn (.unitVariant hs)
  | newtypeVariant _ _ ih =>
    cases hl with
    | newtypeVariant hl => exact ih hl.lossless (fun hh => hn (.newtypeVariant hh)) (by simpa [SVal.ser] using h)
  | tupleVariant => cases hl
  | structVariant => cases hl
  | ref _ ih => exact ih hl hn h

/-! ## Keys -/

/-- A double-quoted node that represents a value stays so if its text is used as a plain scalar, unless that reads
as a null. -/
theorem Denotes.unquote {Γ : Nat → Ty} {ty : Ty} {v : SVal} {y : Yaml} (h : Denotes Γ ty v y) {s : Str}
    (hs : y.asString = Option.some s) (hw : isNullWord s = false) : Denotes Γ ty v (.unquotedString s) := by
  induction h with
  | bool h => rw [eq_of_plainOf h] at hs; cases hs; exact .bool rfl
  | int hk hr h => rw [eq_of_plainOf h] at hs; cases hs; exact .int hk hr rfl
  | float ht h => rw [eq_of_plainOf h] at hs; cases hs; exact .float ht rfl
  | char h => rw [h] at hs; cases hs; exact .char rfl
  | str h => rw [h] at hs; cases hs; exact .str rfl
  | bytes hb h => exfalso; have := h []; cases ‹Yaml› <;> simp [asSeq, Yaml.asString] at this hs
  | unit h => rw [eq_of_plainOf h] at hs; cases hs; exact .unit rfl
  | none h => rw [eq_of_plainOf h] at hs; cases hs; exact .none rfl
  | some h hr hn ih =>
    refine .some (ih hs) rfl ?_
    intro t ht
    simp only [Yaml.asString, Option.some.injEq] at ht
    subst ht
    rw [hw]; nofun
  | newtype h ih => exact .newtype (ih hs)
  | seq ps h h' => have := h' []; cases ‹Yaml› <;> simp [asSeq, Yaml.asString] at this hs
  | tuple ps h h' => have := h' []; cases ‹Yaml› <;> simp [asSeq, Yaml.asString] at this hs
  | map ps hk hv h' => have := h' []; cases ‹Yaml› <;> simp [asMap, Yaml.asString] at this hs
  | struct ps hn h h' => have := h' []; cases ‹Yaml› <;> simp [asMap, Yaml.asString] at this hs
  | unitVariant hl h => rw [h] at hs; cases hs; exact .unitVariant hl rfl
  | newtypeVariant hl h h' _ => rw [h] at hs; cases hs; exact .newtypeVariant hl rfl h'
  | ref h ih => exact .ref (ih hs)

theorem dq_not_null {Γ : Nat → Ty} {ty : Ty} {v : SVal} (ht : HasTy Γ ty v) {ps : List DQPart}
    (h : v.ser = some (.doubleQuotedString ps)) : isNullWord (parseDoubleQuoted ps) = false := by
  have key : ∀ s, strToYaml s = .doubleQuotedString ps → isNullWord (parseDoubleQuoted ps) = false := by
    intro s hs
    have hv := C05_serialized_string_value s
    rw [hs] at hv
    simp only [Yaml.asString, Option.some.injEq] at hv
    rw [hv, Bool.eq_false_iff]
    intro hw
    rcases isNullWord_iff.1 hw with rfl | rfl | rfl | rfl <;>
      exact absurd hs (by nofun)
  induction ht with
  | bool => simp [SVal.ser] at h
  | int => simp [SVal.ser] at h
  | float => simp [SVal.ser] at h
  | char c => exact key [c] (by simpa [SVal.ser] using h)
  | str s => exact key s (by simpa [SVal.ser] using h)
  | bytes => simp [SVal.ser, seqNode] at h
  | unit => simp [SVal.ser] at h
  | none => simp [SVal.ser] at h
  | some _ ih => exact ih (by simpa [SVal.ser] using h)
  | newtype _ ih => exact ih (by simpa [SVal.ser] using h)
  | seq => simp [SVal.ser, seqNode] at h
  | tuple => simp [SVal.ser] at h
  | map => simp [SVal.ser, mapNode] at h
  | struct => simp [SVal.ser, mapNode] at h
  | @unitVariant vs name _ => exact key name (by simpa [SVal.ser] using h)
  | newtypeVariant _ _ ih => exact ih (by simpa [SVal.ser] using h)
  | tupleVariant => simp [SVal.ser] at h
  | structVariant => simp [SVal.ser, mapNode] at h
  | ref _ ih => exact ih h

/-- The key string of a value represents the value. -/
theorem repr_key {Γ : Nat → Ty} {ty : Ty} {v : SVal} (ht : HasTy Γ ty v)
    (hr : ∀ y, v.ser = some y → Denotes Γ ty v y) {s : Str} (h : v.ser.bind yamlToKeyString = some s) :
    Denotes Γ ty v (.unquotedString s) := by
  simp only [Option.bind_eq_some_iff] at h
  obtain ⟨y, hy, hs⟩ := h
  have hr := hr y hy
  cases y <;> simp [yamlToKeyString] at hs
  · subst hs
    exact hr.unquote rfl (dq_not_null ht hy)
  · subst hs; exact hr

/-! ## Serialization gives a representing tree -/

theorem repr_ser {Γ : Nat → Ty} {ty : Ty} {v : SVal} (ht : HasTy Γ ty v) (hl : Lossless v) {y : Yaml}
    (h : v.ser = some y) : Denotes Γ ty v y := by
  induction ht generalizing y with
  | bool b => simp [SVal.ser] at h; subst h; exact .bool (by cases b <;> rfl)
  | int hk hr => simp [SVal.ser] at h; subst h; exact .int hk hr rfl
  | float hf => simp [SVal.ser] at h; subst h; exact .float hf rfl
  | char => simp [SVal.ser] at h; subst h; exact .char (C05_serialized_string_value _)
  | str => simp [SVal.ser] at h; subst h; exact .str (C05_serialized_string_value _)
  | bytes hb => simp [SVal.ser] at h; subst h; exact .bytes hb fun σ => asSeq_seqNode _ _
  | unit => simp [SVal.ser] at h; subst h; exact .unit rfl
  | none => simp [SVal.ser] at h; subst h; exact .none rfl
  | some ht ih =>
    cases hl with
    | some hl hn =>
      simp only [SVal.ser] at h
      exact .some (ih hl h) (refOf_ser ht h) (notNull_ser ht hl hn h)
  | newtype _ ih =>
    cases hl with
    | newtype hl => exact .newtype (ih hl (by simpa [SVal.ser] using h))
  | @seq t vs ht ih =>
    cases hl with
    | seq hl =>
      simp only [SVal.ser, Option.map_eq_some_iff] at h
      obtain ⟨ys, hy, rfl⟩ := h
      obtain ⟨ps, rfl, rfl, hp⟩ := serList_map (fun v => v) (qs := vs) (by simpa using hy)
      exact .seq ps (fun v z hm => ih v (List.mem_map.2 ⟨_, hm, rfl⟩) (hl v (List.mem_map.2 ⟨_, hm, rfl⟩))
        (hp _ hm)) fun σ => asSeq_seqNode _ _
  | tuple qs ht ih =>
    generalize hvs : (qs.map fun p => p.2) = vs at hl h
    cases hl with
    | tuple hl =>
      subst hvs
      simp only [SVal.ser, Option.map_eq_some_iff] at h
      obtain ⟨ys, hy, rfl⟩ := h
      obtain ⟨ps, rfl, rfl, hp⟩ := serList_map (fun q : Ty × SVal => q.2) (qs := qs) hy
      have := Denotes.tuple (Γ := Γ) (y := .inlineArray (ps.map fun p => p.2))
        (ps.map fun p => (p.1.1, p.1.2, p.2)) ?_ ?_
      · simpa only [List.map_map, Function.comp_def] using this
      · intro t v z hm
        simp only [List.mem_map, Prod.mk.injEq] at hm
        obtain ⟨p, hm, rfl, rfl, rfl⟩ := hm
        exact ih _ _ (List.mem_map.2 ⟨_, hm, rfl⟩)
          (hl _ (List.mem_map.2 ⟨_, List.mem_map.2 ⟨_, hm, rfl⟩, rfl⟩)) (hp _ hm)
      · intro σ; simp [asSeq, Function.comp_def]
  | @map kt vt es hk hv ihk ihv =>
    cases hl with
    | map hlk hlv =>
      simp only [SVal.ser, Option.map_eq_some_iff] at h
      obtain ⟨ys, hy, rfl⟩ := h
      obtain ⟨ps, rfl, rfl, hp⟩ := serEntries_map hy
      refine .map ps (fun k s v z hm => ?_) (fun k s v z hm => ?_) fun σ => asMap_mapNode _ _
      · have hm' : (k, v) ∈ ps.map fun p => (p.1, p.2.2.1) := List.mem_map.2 ⟨_, hm, rfl⟩
        exact repr_key (hk k v hm') (fun y hy => ihk k v hm' (hlk k v hm') hy) (hp _ hm).1
      · have hm' : (k, v) ∈ ps.map fun p => (p.1, p.2.2.1) := List.mem_map.2 ⟨_, hm, rfl⟩
        exact ihv k v hm' (hlv k v hm') (hp _ hm).2
  | struct qs hn ht ih =>
    generalize hvs : (qs.map fun p => (p.1, p.2.2)) = vs at hl h
    cases hl with
    | struct hl =>
      subst hvs
      simp only [SVal.ser, Option.map_eq_some_iff] at h
      obtain ⟨ys, hy, rfl⟩ := h
      obtain ⟨ps, rfl, rfl, hp⟩ := serFields_map (fun q : Str × Ty × SVal => q.1) (fun q => q.2.2) hy
      have := Denotes.struct (Γ := Γ) (y := mapNode (ps.map fun p => (p.1.1, p.2)))
        (ps.map fun p => (p.1.1, p.1.2.1, p.1.2.2, p.2)) ?_ ?_ ?_
      · simpa only [List.map_map, Function.comp_def] using this
      · simpa only [List.map_map, Function.comp_def] using hn
      · intro k t v z hm
        simp only [List.mem_map, Prod.mk.injEq] at hm
        obtain ⟨p, hm, rfl, rfl, rfl, rfl⟩ := hm
        exact ih _ _ _ (List.mem_map.2 ⟨_, hm, rfl⟩)
          (hl _ _ (List.mem_map.2 ⟨_, List.mem_map.2 ⟨_, hm, rfl⟩, rfl⟩)) (hp _ hm)
      · intro σ; rw [asMap_mapNode]; simp [Function.comp_def]
  | unitVariant hl' =>
    simp [SVal.ser] at h; subst h
    exact .unitVariant hl' (C05_serialized_string_value _)
  | newtypeVariant hl' ht' ih =>
    cases hl with
    | newtypeVariant hl =>
      simp only [SVal.ser] at h
      exact .newtypeVariant hl' (hl.ser h) (hl.denotes ht')
  | tupleVariant => cases hl
  | structVariant => cases hl
  | ref _ ih => exact .ref (ih hl h)

/-! ## `pretty` keeps representing trees -/

theorem pretty_plain {s : Str} (h : inlineBreakingChars s = false) (i c : Bool) :
    (Yaml.unquotedString s).pretty i c = .unquotedString s := by simp [Yaml.pretty, h]

theorem pretty_plainOf {y : Yaml} {s : Str} (hp : plainOf y = some s) (h : inlineBreakingChars s = false)
    (i c : Bool) : plainOf (y.pretty i c) = some s := by
  rw [eq_of_plainOf hp, pretty_plain h]; rfl

theorem asString_pretty_none {y : Yaml} (h : y.asString = none) (i c : Bool) :
    (y.pretty i c).asString = none := by
  cases y <;> simp [Yaml.asString] at h <;> simp only [Yaml.pretty]
  case inlineHash => rfl
  case hash =>
    split
    · rfl
    · split <;> rfl
  case inlineArray => rfl
  case array =>
    split
    · rfl
    · split
      · rfl
      · unfold autoInline; split <;> rfl
  case anchor => rfl

theorem refOf_pretty {y : Yaml} (h : refOf y = none) (i c : Bool) : refOf (y.pretty i c) = none := by
  cases y <;> simp [refOf] at h <;> simp only [Yaml.pretty]
  case inlineHash => rfl
  case hash =>
    split
    · rfl
    · split <;> rfl
  case inlineArray => rfl
  case array =>
    split
    · rfl
    · split
      · rfl
      · unfold autoInline; split <;> rfl
  case singleQuotedString =>
    unfold prettySingleQuoted
    simp only
    repeat' split
    all_goals rfl
  case doubleQuotedString =>
    unfold prettyDoubleQuoted
    simp only
    repeat' split
    all_goals rfl
  case unquotedString => split <;> rfl
  case foldedString => rfl
  case literalString => rfl

/-- A node that becomes plain was plain, or its text may be unquoted. -/
theorem plainOf_pretty {y : Yaml} {i c : Bool} {s : Str} (h : plainOf (y.pretty i c) = some s) :
    plainOf y = some s ∨ canBeUnquotedInBlock s = true := by
  cases y <;> simp only [Yaml.pretty] at h
  case inlineHash => simp [plainOf] at h
  case hash =>
    split at h
    · simp [plainOf] at h
    · split at h <;> simp [plainOf] at h
  case inlineArray => simp [plainOf] at h
  case array =>
    split at h
    · simp [plainOf] at h
    · split at h
      · simp [plainOf] at h
      · unfold autoInline at h; split at h <;> simp [plainOf] at h
  case singleQuotedString ps =>
    unfold prettySingleQuoted at h
    simp only at h
    split at h
    · simp [plainOf] at h
    · split at h
      · rename_i hc
        simp only [plainOf, Option.some.injEq] at h
        subst h
        simp at hc
        exact .inr hc.1.1.2
      · repeat' split at h
        all_goals simp [plainOf] at h
  case doubleQuotedString =>
    unfold prettyDoubleQuoted at h
    simp only at h
    repeat' split at h
    all_goals simp [plainOf] at h
  case unquotedString =>
    split at h
    · simp [plainOf] at h
    · exact .inl h
  case foldedString => simp [plainOf] at h
  case literalString => simp [plainOf] at h
  case anchor => simp [plainOf] at h

theorem seqValues_length (σ : Anchors) (ds : List ArrayData) : σ.length ≤ (seqValues σ ds).2.length := by
  induction ds generalizing σ with
  | nil => exact Nat.le_refl _
  | cons d t ih =>
    match d with
    | .comment _ => exact ih σ
    | .inlineComment _ => exact ih σ
    | .element ⟨none, v⟩ => exact ih σ
    | .element ⟨some a, v⟩ =>
      have := ih ((a, v) :: σ)
      simp only [List.length_cons] at this
      simp only [seqValues, register]
      omega

theorem hashEntries_length (σ : Anchors) (ds : List HashData) : σ.length ≤ (hashEntries σ ds).2.length := by
  induction ds generalizing σ with
  | nil => exact Nat.le_refl _
  | cons d t ih =>
    match d with
    | .comment _ => exact ih σ
    | .inlineComment _ => exact ih σ
    | .element ⟨k, ⟨none, v⟩⟩ => exact ih σ
    | .element ⟨k, ⟨some a, v⟩⟩ =>
      have := ih ((a, v) :: σ)
      simp only [List.length_cons] at this
      simp only [hashEntries, register]
      omega

theorem seqValues_onValue {σ : Anchors} {ds : List ArrayData} {ys : List Yaml} (g : Yaml → Yaml)
    (h : seqValues σ ds = (ys, σ)) (σ' : Anchors) :
    seqValues σ' (ds.map (ArrayData.onValue g)) = (ys.map g, σ') ∧ ds.filterMap ArrayData.value? = ys := by
  induction ds generalizing ys with
  | nil => simp [seqValues] at h; subst h; exact ⟨rfl, rfl⟩
  | cons d t ih =>
    match d with
    | .comment _ => exact ih h
    | .inlineComment _ => exact ih h
    | .element ⟨none, v⟩ =>
      simp only [seqValues, register, Prod.mk.injEq] at h
      obtain ⟨rfl, h2⟩ := h
      have := ih (ys := (seqValues σ t).1) (Prod.ext rfl h2)
      simp only [List.map_cons, ArrayData.onValue, seqValues, register, this.1]
      refine ⟨trivial, ?_⟩
      simp [ArrayData.value?, this.2]
    | .element ⟨some a, v⟩ =>
      simp only [seqValues, register, Prod.mk.injEq] at h
      have := seqValues_length ((a, v) :: σ) t
      rw [h.2] at this
      simp at this
      omega

theorem hashEntries_onValue {σ : Anchors} {ds : List HashData} {es : List (Str × Yaml)} (g : Yaml → Yaml)
    (h : hashEntries σ ds = (es, σ)) (σ' : Anchors) :
    hashEntries σ' (ds.map (HashData.onValue g)) = (es.map fun e => (e.1, g e.2), σ') ∧
      ds.filterMap HashData.entry? = es := by
  induction ds generalizing es with
  | nil => simp [hashEntries] at h; subst h; exact ⟨rfl, rfl⟩
  | cons d t ih =>
    match d with
    | .comment _ => exact ih h
    | .inlineComment _ => exact ih h
    | .element ⟨k, ⟨none, v⟩⟩ =>
      simp only [hashEntries, register, Prod.mk.injEq] at h
      obtain ⟨rfl, h2⟩ := h
      have := ih (es := (hashEntries σ t).1) (Prod.ext rfl h2)
      simp only [List.map_cons, HashData.onValue, hashEntries, register, this.1]
      refine ⟨trivial, ?_⟩
      simp [HashData.entry?, this.2]
    | .element ⟨k, ⟨some a, v⟩⟩ =>
      simp only [hashEntries, register, Prod.mk.injEq] at h
      have := hashEntries_length ((a, v) :: σ) t
      rw [h.2] at this
      simp at this
      omega

theorem asSeq_pretty {y : Yaml} {ys : List Yaml} (h : ∀ σ, asSeq σ y = some (ys, σ)) (i c : Bool) :
    ∃ i' c', ∀ σ, asSeq σ (y.pretty i c) = some (ys.map (Yaml.pretty i' c'), σ) := by
  have h0 := h []
  cases y <;> simp only [asSeq, Option.some.injEq, Prod.mk.injEq, reduceCtorEq] at h0
  case inlineArray es =>
    obtain ⟨rfl, -⟩ := h0
    exact ⟨true, false, fun σ => by simp [Yaml.pretty, prettyYamls_eq, asSeq]⟩
  case array ds =>
    simp only [Yaml.pretty]
    split
    · rename_i he
      simp at he
      subst he
      simp [seqValues] at h0
      subst h0
      exact ⟨true, false, fun σ => rfl⟩
    · split
      · exact ⟨true, false, fun σ => by
          simp [asSeq, arrayToYamls_eq, (seqValues_onValue (fun y => y) h0 σ).2]⟩
      · refine ⟨false, true, fun σ => ?_⟩
        have hv := seqValues_onValue (Yaml.pretty false true) h0 σ
        unfold autoInline
        split
        · rw [arrayDataValues_eq, prettyArrayData_eq, ArrayData.onValue_value, hv.2]; rfl
        · rw [prettyArrayData_eq, asSeq, hv.1]

theorem asMap_pretty {y : Yaml} {es : List (Str × Yaml)} (h : ∀ σ, asMap σ y = some (es, σ)) (i c : Bool) :
    ∃ i' c', ∀ σ, asMap σ (y.pretty i c) = some (es.map fun e => (e.1, e.2.pretty i' c'), σ) := by
  have h0 := h []
  cases y <;> simp only [asMap, Option.some.injEq, Prod.mk.injEq, reduceCtorEq] at h0
  case inlineHash es =>
    obtain ⟨rfl, -⟩ := h0
    exact ⟨true, false, fun σ => by simp [Yaml.pretty, prettyEntries_eq, asMap]⟩
  case hash ds =>
    simp only [Yaml.pretty]
    split
    · rename_i he
      simp at he
      subst he
      simp [hashEntries] at h0
      subst h0
      exact ⟨true, false, fun σ => rfl⟩
    · split
      · exact ⟨true, false, fun σ => by
          simp [asMap, hashToEntries_eq, (hashEntries_onValue (fun y => y) h0 σ).2]⟩
      · refine ⟨false, false, fun σ => ?_⟩
        rw [prettyHashData_eq, asMap, (hashEntries_onValue (Yaml.pretty false false) h0 σ).1]

/-- The text of a representing scalar is kept. -/
theorem Denotes.asString_pretty {Γ : Nat → Ty} {ty : Ty} {v : SVal} {y : Yaml} (h : Denotes Γ ty v y)
    (ht : AllText SafeToFold v) (i c : Bool) : (y.pretty i c).asString = y.asString := by
  induction h with
  | @bool b y h => rw [eq_of_plainOf h, pretty_plain (by cases b <;> decide)]
  | int hk hr h => rw [eq_of_plainOf h, pretty_plain (inlineBreaking_of_floatChars (intToStr_floatChars _))]
  | float hf h => rw [eq_of_plainOf h, pretty_plain (inlineBreaking_of_floatChars (f64_chars hf))]
  | char h => cases ht with | char ht => rw [h, C31_pretty_scalar _ _ i c h ht]
  | str h => cases ht with | str ht => rw [h, C31_pretty_scalar _ _ i c h ht]
  | bytes hb h =>
    obtain ⟨i', c', hh⟩ := asSeq_pretty h i c
    have h1 := h []
    have h2 := hh []
    generalize Yaml.pretty i c _ = z at *
    cases z <;> cases ‹Yaml› <;> simp [asSeq, Yaml.asString] at h1 h2 ⊢
  | unit h => rw [eq_of_plainOf h]; rw [pretty_plain (by decide)]
  | none h => rw [eq_of_plainOf h]; rw [pretty_plain (by decide)]
  | some h hr hn ih => cases ht with | some ht => exact ih ht
  | newtype h ih => cases ht with | newtype ht => exact ih ht
  | @seq t y ps h h' => 
    have : y.asString = .none := by have := h' []; cases y <;> simp [asSeq, Yaml.asString] at this ⊢
    rw [this, asString_pretty_none this]
  | @tuple y ps h h' =>
    have : y.asString = .none := by have := h' []; cases y <;> simp [asSeq, Yaml.asString] at this ⊢
    rw [this, asString_pretty_none this]
  | @map kt vt y ps hk hv h' =>
    have : y.asString = .none := by have := h' []; cases y <;> simp [asMap, Yaml.asString] at this ⊢
    rw [this, asString_pretty_none this]
  | @struct y ps hn h h' =>
    have : y.asString = .none := by have := h' []; cases y <;> simp [asMap, Yaml.asString] at this ⊢
    rw [this, asString_pretty_none this]
  | unitVariant hl h => cases ht with | unitVariant ht => rw [h, C31_pretty_scalar _ _ i c h ht]
  | newtypeVariant hl h => rw [h, C31_pretty_scalar _ _ i c h (.inl (by decide))]
  | ref h ih => exact ih ht

theorem Denotes.pretty {Γ : Nat → Ty} {ty : Ty} {v : SVal} {y : Yaml} (h : Denotes Γ ty v y)
    (ht : AllText SafeToFold v) (i c : Bool) : Denotes Γ ty v (y.pretty i c) := by
  induction h generalizing i c with
  | @bool b y h => exact .bool (pretty_plainOf h (by cases b <;> decide) i c)
  | int hk hr h => exact .int hk hr (pretty_plainOf h (inlineBreaking_of_floatChars (intToStr_floatChars _)) i c)
  | float hf h => exact .float hf (pretty_plainOf h (inlineBreaking_of_floatChars (f64_chars hf)) i c)
  | char h => cases ht with | char ht => exact .char (C31_pretty_scalar _ _ i c h ht)
  | str h => cases ht with | str ht => exact .str (C31_pretty_scalar _ _ i c h ht)
  | bytes hb h =>
    obtain ⟨i', c', hh⟩ := asSeq_pretty h i c
    refine .bytes hb fun σ => ?_
    rw [hh σ, List.map_map]
    congr 3
    funext b
    exact pretty_plain (inlineBreaking_of_floatChars (natToStr_floatChars b)) _ _
  | unit h => exact .unit (pretty_plainOf h (by decide) i c)
  | none h => exact .none (pretty_plainOf h (by decide) i c)
  | @some t v y h hr hn ih =>
    cases ht with
    | some ht =>
      refine .some (ih ht i c) (refOf_pretty hr i c) fun s hs hw => ?_
      rw [h.asString_pretty ht] at hs
      obtain ⟨h1, h2⟩ := hn s hs hw
      refine ⟨?_, h2⟩
      cases hp : plainOf (y.pretty i c) with
      | none => rfl
      | some s' =>
        exfalso
        have hs' : s' = s := by
          have := h.asString_pretty ht i c
          rw [eq_of_plainOf hp, hs] at this
          simpa [Yaml.asString] using this
        rcases plainOf_pretty hp with hq | hq
        · rw [h1] at hq; simp at hq
        · rw [hs', h2] at hq; simp at hq
  | newtype h ih => cases ht with | newtype ht => exact .newtype (ih ht i c)
  | @seq t y ps h h' ih =>
    generalize hvs : (ps.map fun p => p.1) = vs at ht
    cases ht with
    | seq ht =>
      subst hvs
      obtain ⟨i', c', hh⟩ := asSeq_pretty h' i c
      have := Denotes.seq (Γ := Γ) (ps.map fun p => (p.1, p.2.pretty i' c')) (t := t) (y := y.pretty i c) ?_ ?_
      · simpa only [List.map_map, Function.comp_def] using this
      · intro v z hm
        simp only [List.mem_map, Prod.mk.injEq] at hm
        obtain ⟨p, hm, rfl, rfl⟩ := hm
        exact ih _ _ hm (ht _ (List.mem_map.2 ⟨_, hm, rfl⟩)) i' c'
      · intro σ
        rw [hh σ]; simp [Function.comp_def]
  | @tuple y ps h h' ih =>
    generalize hvs : (ps.map fun p => p.2.1) = vs at ht
    cases ht with
    | tuple ht =>
      subst hvs
      obtain ⟨i', c', hh⟩ := asSeq_pretty h' i c
      have := Denotes.tuple (Γ := Γ) (ps.map fun p => (p.1, p.2.1, p.2.2.pretty i' c')) (y := y.pretty i c) ?_ ?_
      · simpa only [List.map_map, Function.comp_def] using this
      · intro t v z hm
        simp only [List.mem_map, Prod.mk.injEq] at hm
        obtain ⟨p, hm, rfl, rfl, rfl⟩ := hm
        exact ih _ _ _ hm (ht _ (List.mem_map.2 ⟨_, hm, rfl⟩)) i' c'
      · intro σ
        rw [hh σ]; simp [Function.comp_def]
  | @map kt vt y ps hk hv h' ihk ihv =>
    generalize hvs : (ps.map fun p => (p.1, p.2.2.1)) = vs at ht
    cases ht with
    | map ht =>
      subst hvs
      obtain ⟨i', c', hh⟩ := asMap_pretty h' i c
      have := Denotes.map (Γ := Γ) (ps.map fun p => (p.1, p.2.1, p.2.2.1, p.2.2.2.pretty i' c'))
        (kt := kt) (vt := vt) (y := y.pretty i c) ?_ ?_ ?_
      · simpa only [List.map_map, Function.comp_def] using this
      · intro k s v z hm
        simp only [List.mem_map, Prod.mk.injEq] at hm
        obtain ⟨p, hm, rfl, rfl, rfl, rfl⟩ := hm
        exact hk _ _ _ _ hm
      · intro k s v z hm
        simp only [List.mem_map, Prod.mk.injEq] at hm
        obtain ⟨p, hm, rfl, rfl, rfl, rfl⟩ := hm
        exact ihv _ _ _ _ hm (ht _ _ (List.mem_map.2 ⟨_, hm, rfl⟩)) i' c'
      · intro σ
        rw [hh σ]; simp [Function.comp_def]
  | @struct y ps hn h h' ih =>
    generalize hvs : (ps.map fun p => (p.1, p.2.2.1)) = vs at ht
    cases ht with
    | struct ht =>
      subst hvs
      obtain ⟨i', c', hh⟩ := asMap_pretty h' i c
      have := Denotes.struct (Γ := Γ) (ps.map fun p => (p.1, p.2.1, p.2.2.1, p.2.2.2.pretty i' c'))
        (y := y.pretty i c) ?_ ?_ ?_
      · simpa only [List.map_map, Function.comp_def] using this
      · simpa only [List.map_map, Function.comp_def] using hn
      · intro k t v z hm
        simp only [List.mem_map, Prod.mk.injEq] at hm
        obtain ⟨p, hm, rfl, rfl, rfl, rfl⟩ := hm
        exact ih _ _ _ _ hm (ht _ _ (List.mem_map.2 ⟨_, hm, rfl⟩)) i' c'
      · intro σ
        rw [hh σ]; simp [Function.comp_def]
  | unitVariant hl h =>
    cases ht with | unitVariant ht => exact .unitVariant hl (C31_pretty_scalar _ _ i c h ht)
  | newtypeVariant hl h h' _ => exact .newtypeVariant hl (C31_pretty_scalar _ _ i c h (.inl (by decide))) h'
  | ref h ih => exact .ref (ih ht i c)

end YamlSubset
