import Verif.Spec.FindValue
import Verif.Props.ValueEdit
import Verif.Props.FindExact
import Verif.Lemmas.BreaksSem
import Verif.Lemmas.RoundTripExact
import Verif.Lemmas.KernelRfl

/-! # C69: what is found at a path is what the path leads to in the data -/

namespace YamlSubset
open Spec

theorem findSome_pair (k : Str) (es : List (SVal × SVal)) (x : SVal) :
    entryOf k (.map es) = some x ↔ ∃ pre post, FirstPair k es pre x post := by
  unfold entryOf
  induction es with
  | nil => simp [FirstPair]
  | cons e t ih =>
    obtain ⟨a, b⟩ := e
    simp only [List.findSome?_cons]
    by_cases ha : a = .str k
    · subst ha
      simp only [if_true, Option.some.injEq]
      constructor
      · rintro rfl; exact ⟨[], t, rfl, by simp⟩
      · rintro ⟨pre, post, he, hn⟩
        cases pre with
        | nil => simp only [List.nil_append, List.cons.injEq, Prod.mk.injEq] at he; exact he.1.2
        | cons p pre =>
          simp only [List.cons_append, List.cons.injEq] at he
          exact absurd (by rw [← he.1]; simp) (hn b)
    · simp only [ha, if_false]
      rw [ih]
      constructor
      · rintro ⟨pre, post, rfl, hn⟩
        refine ⟨(a, b) :: pre, post, rfl, ?_⟩
        intro w hw
        simp only [List.mem_cons, Prod.mk.injEq] at hw
        rcases hw with ⟨h, -⟩ | hw
        · exact ha h.symm
        · exact hn w hw
      · rintro ⟨pre, post, he, hn⟩
        cases pre with
        | nil => simp only [List.nil_append, List.cons.injEq, Prod.mk.injEq] at he; exact absurd he.1.1 ha
        | cons p pre =>
          simp only [List.cons_append, List.cons.injEq] at he
          exact ⟨pre, post, he.2, fun w hw => hn w (by simp [hw])⟩

theorem entryOf_hash (k : Str) (ds : List HashData) :
    entryOf k (.map (hashVals ds)) = (firstValue k (.hash ds)).map anyValue := by
  unfold entryOf firstValue
  induction ds with
  | nil => rfl
  | cons d t ih =>
    rcases d with c | c | ⟨k', a, v⟩
    · simpa [hashVals] using ih
    · simpa [hashVals] using ih
    · simp only [hashVals, List.findSome?_cons, SVal.str.injEq] at ih ⊢
      by_cases h : k' = k
      · simp [h]
      · simpa [h] using ih

theorem entryOf_of_firstValue {k : Str} {y v : Yaml} (h : firstValue k y = some v) : entryOf k (anyValue y) = some (anyValue v) := by
  cases y with
  | hash ds => rw [anyValue, entryOf_hash, h]; rfl
  | _ => cases h

theorem plain_not_map (s : Str) (es : List (SVal × SVal)) : deAnyPlain s ≠ .map es := by
  unfold deAnyPlain; repeat' split
  all_goals simp

theorem plain_not_seq (s : Str) (vs : List SVal) : deAnyPlain s ≠ .seq vs := by
  unfold deAnyPlain; repeat' split
  all_goals simp

theorem plain_str {s t : Str} (h : deAnyPlain s = .str t) : s = t := by
  unfold deAnyPlain at h
  repeat' split at h
  all_goals first | cases h; rfl | cases h

theorem entryOf_noFlow {y : Yaml} (hy : NoFlow y) (k : Str) : entryOf k (anyValue y) = (firstValue k y).map anyValue := by
  cases hy with
  | hash h => rw [anyValue, entryOf_hash]
  | unquoted s =>
    simp only [anyValue, firstValue, Option.map_none]
    unfold entryOf
    split
    · rename_i es h; exact absurd h (plain_not_map s es)
    · rfl
  | _ => simp [anyValue, entryOf, firstValue]

theorem elementValues_eq (ds : List ArrayData) : elementValues ds = elementsOf ds := by
  induction ds with
  | nil => rfl
  | cons d t ih => rcases d with c | c | ⟨a, v⟩ <;> simpa [elementValues, elementsOf] using ih

theorem elementsAt_array (is : Option (List Nat)) (ds : List ArrayData) :
    elementsAt is (anyValue (.array ds)) = (atIndexes is (elementValues ds)).map anyValue := by
  rw [anyValue, arrayVals_eq, ← elementValues_eq]
  cases is with
  | none => rfl
  | some ns =>
    simp only [elementsAt, atIndexes]
    induction ns with
    | nil => rfl
    | cons n t ih =>
      simp only [List.filterMap_cons, List.getElem?_map] at ih ⊢
      cases (elementValues ds)[n]? <;> simp [ih]

theorem elementsAt_noArray {y : Yaml} (hy : NoFlow y) (h : ∀ ds, y ≠ .array ds) (is : Option (List Nat)) : elementsAt is (anyValue y) = [] := by
  cases hy with
  | array h' => exact absurd rfl (h _)
  | unquoted s =>
    unfold elementsAt
    split
    · rename_i vs h; exact absurd h (plain_not_seq s vs)
    · rfl
  | _ => rfl

/-- Conditions that a node fits hold in its value. -/
theorem fits_holds {cs : List Condition} {y : Yaml} (h : Fits cs y) : AllHold cs (anyValue y) := by
  intro c hc
  obtain ⟨ds, pre, v, post, rfl, hf, hs⟩ := h c hc
  have hk : firstValue c.field (.hash ds) = some v.value := by
    rw [firstValue_keyValue]
    show Option.map _ (keyValueIn _ _) = _
    obtain ⟨rfl, hn⟩ := hf
    clear h hs
    induction pre with
    | nil => simp [keyValueIn]
    | cons d t ih =>
      rcases d with x | x | ⟨k', a, w⟩
      · simpa [keyValueIn] using ih (by simpa [keysOf] using hn)
      · simpa [keyValueIn] using ih (by simpa [keysOf] using hn)
      · simp only [keysOf, List.filterMap_cons, List.mem_cons, not_or] at hn
        have := ih (by simpa [keysOf] using hn.2)
        simpa [keyValueIn, Ne.symm hn.1] using this
  obtain ⟨pre', post', hp⟩ := (findSome_pair _ _ _).1 ((entryOf_hash c.field ds).trans (by rw [hk]; rfl))
  refine ⟨hashVals ds, pre', anyValue v.value, post', by rw [anyValue], hp, ?_⟩
  obtain ⟨a, w⟩ := v
  simp only at hs ⊢
  cases w <;> simp_all [Yaml.asString, anyValue]

/-- For texts that are strings it is the other way round too. -/
theorem holds_fits {cs : List Condition} {y : Yaml} (hy : NoFlow y) (hc : ∀ c ∈ cs, deAnyPlain c.value = .str c.value)
    (h : AllHold cs (anyValue y)) : Fits cs y := by
  rw [← fitsConditions_iff]
  unfold Yaml.fitsConditions
  simp only [Bool.not_eq_true', List.any_eq_false]
  intro c hcs
  obtain ⟨es, pre, x, post, he, hp, hx⟩ := h c hcs
  have hx' : x = .str c.value := by
    rcases hx with hx | hx
    · exact hx
    · rw [hx, hc c hcs]
  subst hx'
  have h1 := (findSome_pair _ _ _).2 ⟨pre, post, hp⟩
  rw [← he, entryOf_noFlow hy, firstValue_keyValue] at h1
  cases hk : y.keyValue c.field with
  | none => rw [hk] at h1; simp at h1
  | some v =>
    obtain ⟨a, w⟩ := v
    rw [hk] at h1
    simp only [Option.map_some, Option.some.injEq] at h1
    have : w.asString = some c.value := by
      cases w <;> simp_all [Yaml.asString, anyValue]
      exact plain_str h1
    simp [this]

theorem filter_sub {cs : List Condition} {l : List Yaml} :
    letI := Classical.propDecidable
    ((l.filter fun e => Fits cs e).map anyValue).Sublist ((l.map anyValue).filter fun e => AllHold cs e) := by
  induction l with
  | nil => simp
  | cons e t ih =>
    simp only [List.filter_cons, List.map_cons]
    by_cases h : Fits cs e
    · simp only [h, fits_holds h, decide_true, if_true, List.map_cons]
      exact ih.cons_cons _
    · by_cases h' : AllHold cs (anyValue e)
      · simp only [h, h', decide_true, decide_false, if_true, Bool.false_eq_true, if_false]
        exact ih.cons _
      · simp only [h, h', decide_false, Bool.false_eq_true, if_false]
        exact ih

theorem filter_same {cs : List Condition} {l : List Yaml} (hl : ∀ e ∈ l, NoFlow e) (hc : ∀ c ∈ cs, deAnyPlain c.value = .str c.value) :
    letI := Classical.propDecidable
    (l.filter fun e => Fits cs e).map anyValue = (l.map anyValue).filter fun e => AllHold cs e := by
  induction l with
  | nil => simp
  | cons e t ih =>
    simp only [List.filter_cons, List.map_cons]
    have ih := ih fun e he => hl e (by simp [he])
    by_cases h : Fits cs e
    · simp only [h, fits_holds h, decide_true, if_true, List.map_cons, ih]
    · have h' : ¬AllHold cs (anyValue e) := fun h' => h (holds_fits (hl e (by simp)) hc h')
      simp only [h, h', decide_false, Bool.false_eq_true, if_false]
      exact ih

theorem flatMap_sub {α β : Type} {l : List Yaml} {m : List α} {f : Yaml → List Yaml} {g : α → List β} {A : Yaml → α} {B : Yaml → β}
    (h : (l.map A).Sublist m) (hf : ∀ e ∈ l, ((f e).map B).Sublist (g (A e))) : ((l.flatMap f).map B).Sublist (m.flatMap g) := by
  induction m generalizing l with
  | nil => simp only [List.sublist_nil, List.map_eq_nil_iff] at h; subst h; simp
  | cons a m ih =>
    cases l with
    | nil => simp
    | cons e t =>
      simp only [List.map_cons] at h
      simp only [List.flatMap_cons, List.map_append]
      cases h with
      | cons _ h =>
        have := ih (l := e :: t) (by simpa using h) hf
        simp only [List.flatMap_cons, List.map_append] at this
        exact this.trans (List.sublist_append_right _ _)
      | cons_cons _ h =>
        exact (hf e (by simp)).append (ih h fun e' he' => hf e' (by simp [he']))

theorem selectBlock_sub (is : Option (List Nat)) (cs : List Condition) (y : Yaml) :
    letI := Classical.propDecidable
    ((selectBlock is cs y).map anyValue).Sublist ((elementsAt is (anyValue y)).filter fun e => AllHold cs e) := by
  cases y with
  | array ds => simp only [selectBlock, elementsAt_array]; exact filter_sub
  | _ => simp [selectBlock]

/-- What is looked up in a node is among what the path leads to in its value, in the same order. -/
theorem lookup_sub (path : YamlPath) (y : Yaml) : ((lookupBy selectBlock path y).map anyValue).Sublist (valuesAt path (anyValue y)) := by
  induction path using lastKey.induct generalizing y with
  | case1 cs =>
    simp only [lookupBy, valuesAt]
    by_cases h : Fits cs y
    · simp [h, fits_holds h]
    · simp [h]
  | case2 k cs =>
    simp only [lookupBy, valuesAt]
    by_cases h : Fits cs y
    · simp only [h, fits_holds h, if_true]
      cases hv : firstValue k y with
      | none => simp
      | some v => simp [entryOf_of_firstValue hv]
    · simp [h]
  | case3 k cs p ih =>
    simp only [lookupBy, valuesAt]
    by_cases h : Fits cs y
    · simp only [h, fits_holds h, if_true]
      cases hv : firstValue k y with
      | none => simp
      | some v => simpa [entryOf_of_firstValue hv] using ih v
    · simp [h]
  | case4 cs => exact selectBlock_sub none cs y
  | case5 cs p ih =>
    simp only [lookupBy, valuesAt]
    exact flatMap_sub (selectBlock_sub none cs y) fun e _ => ih e
  | case6 is cs => exact selectBlock_sub (some is) cs y
  | case7 is cs p ih =>
    simp only [lookupBy, valuesAt]
    exact flatMap_sub (selectBlock_sub (some is) cs y) fun e _ => ih e

theorem noFlow_atIndexes {ds : List ArrayData} (hy : NoFlow (.array ds)) (is : Option (List Nat)) : ∀ e ∈ atIndexes is (elementValues ds), NoFlow e := by
  cases hy with
  | array h =>
    have hm : ∀ e ∈ elementValues ds, NoFlow e := by
      intro e he
      rw [elementValues_eq] at he
      obtain ⟨d, hd, hde⟩ := List.mem_filterMap.1 he
      rcases d with c | c | ⟨a, v⟩ <;> simp at hde
      subst hde
      exact h a v hd
    cases is with
    | none => exact hm
    | some ns =>
      intro e he
      obtain ⟨i, -, hi⟩ := List.mem_filterMap.1 he
      exact hm e (List.mem_iff_getElem?.2 ⟨i, hi⟩)

theorem noFlow_firstValue {y v : Yaml} {k : Str} (hy : NoFlow y) (h : firstValue k y = some v) : NoFlow v := by
  cases hy with
  | hash hd =>
    obtain ⟨d, hm, hd'⟩ := List.exists_of_findSome?_eq_some h
    rcases d with c | c | ⟨k', a, w⟩ <;> simp at hd'
    rw [← hd'.2]
    exact hd k' a w hm
  | _ => cases h

theorem selectBlock_same {y : Yaml} (hy : NoFlow y) (is : Option (List Nat)) (cs : List Condition) (hc : ∀ c ∈ cs, deAnyPlain c.value = .str c.value) :
    letI := Classical.propDecidable
    (selectBlock is cs y).map anyValue = (elementsAt is (anyValue y)).filter fun e => AllHold cs e := by
  by_cases h : ∃ ds, y = .array ds
  · obtain ⟨ds, rfl⟩ := h
    simp only [selectBlock, elementsAt_array]
    exact filter_same (noFlow_atIndexes hy is) hc
  · rw [elementsAt_noArray hy (fun ds e => h ⟨ds, e⟩)]
    cases y with
    | array ds => exact absurd ⟨ds, rfl⟩ h
    | _ => simp [selectBlock]

theorem noFlow_selectBlock {y : Yaml} (hy : NoFlow y) (is : Option (List Nat)) (cs : List Condition) : ∀ e ∈ selectBlock is cs y, NoFlow e := by
  intro e he
  cases y with
  | array ds => exact noFlow_atIndexes hy is e (List.mem_filter.1 he).1
  | _ => simp [selectBlock] at he

theorem flatMap_same {α β : Type} {l : List Yaml} {f : Yaml → List Yaml} {g : α → List β} {A : Yaml → α} {B : Yaml → β}
    (hf : ∀ e ∈ l, (f e).map B = g (A e)) : (l.flatMap f).map B = (l.map A).flatMap g := by
  induction l with
  | nil => rfl
  | cons e t ih => simp [List.flatMap_cons, hf e (by simp), ih fun e' he' => hf e' (by simp [he'])]

/-- Without flow collections, and with conditions on strings, it is all of it. -/
theorem lookup_same (path : YamlPath) (hp : StringConditions path) {y : Yaml} (hy : NoFlow y) :
    (lookupBy selectBlock path y).map anyValue = valuesAt path (anyValue y) := by
  have hiff : ∀ {cs : List Condition}, (∀ c ∈ cs, deAnyPlain c.value = .str c.value) → ∀ {y : Yaml}, NoFlow y → (AllHold cs (anyValue y) ↔ Fits cs y) :=
    fun hc _ hy => ⟨holds_fits hy hc, fits_holds⟩
  induction path using lastKey.induct generalizing y with
  | case1 cs =>
    simp only [lookupBy, valuesAt]
    by_cases h : Fits cs y
    · simp [h, fits_holds h]
    · simp [h, mt (hiff hp hy).1 h]
  | case2 k cs =>
    simp only [lookupBy, valuesAt]
    by_cases h : Fits cs y
    · simp only [h, fits_holds h, if_true, entryOf_noFlow hy]
      cases firstValue k y <;> simp
    · simp [h, mt (hiff hp hy).1 h]
  | case3 k cs p ih =>
    simp only [lookupBy, valuesAt]
    by_cases h : Fits cs y
    · simp only [h, fits_holds h, if_true, entryOf_noFlow hy]
      cases hv : firstValue k y with
      | none => simp
      | some v => simpa using ih hp.2 (noFlow_firstValue hy hv)
    · simp [h, mt (hiff hp.1 hy).1 h]
  | case4 cs => exact selectBlock_same hy none cs hp
  | case5 cs p ih =>
    simp only [lookupBy, valuesAt]
    rw [← selectBlock_same hy none cs hp.1]
    exact flatMap_same fun e he => ih hp.2 (noFlow_selectBlock hy _ _ e he)
  | case6 is cs => exact selectBlock_same hy (some is) cs hp
  | case7 is cs p ih =>
    simp only [lookupBy, valuesAt]
    rw [← selectBlock_same hy (some is) cs hp.1]
    exact flatMap_same fun e he => ih hp.2 (noFlow_selectBlock hy _ _ e he)

/-! ## Nodes without references -/

theorem noRefs_firstValue {y v : Yaml} {k : Str} (hy : NoRefs y) (h : firstValue k y = some v) : NoRefs v := by
  cases y with
  | hash ds =>
    obtain ⟨d, hm, hd'⟩ := List.exists_of_findSome?_eq_some h
    rcases d with c | c | ⟨k', a, w⟩ <;> simp at hd'
    rw [← hd'.2]
    exact (noRefs_hash ds).1 hy k' a w hm
  | _ => cases h

theorem noRefs_selectBlock {y : Yaml} (hy : NoRefs y) (is : Option (List Nat)) (cs : List Condition) : ∀ e ∈ selectBlock is cs y, NoRefs e := by
  intro e he
  obtain ⟨ds, hds, he'⟩ := mem_selectBlock he
  subst hds
  rw [elementValues_eq] at he'
  obtain ⟨d, hd, hde⟩ := List.mem_filterMap.1 he'
  rcases d with c | c | ⟨a, v⟩ <;> simp at hde
  subst hde
  exact (noRefs_array ds).1 hy a v hd

theorem noRefs_lookup (path : YamlPath) {y : Yaml} (hy : NoRefs y) : ∀ e ∈ lookupBy selectBlock path y, NoRefs e := by
  induction path using lastKey.induct generalizing y with
  | case1 cs =>
    intro e he
    simp only [lookupBy] at he
    split at he
    · simp at he; exact he ▸ hy
    · simp at he
  | case2 k cs =>
    intro e he
    simp only [lookupBy] at he
    split at he
    · exact noRefs_firstValue hy (by simpa using he)
    · simp at he
  | case3 k cs p ih =>
    intro e he
    simp only [lookupBy] at he
    split at he
    · obtain ⟨v, hv, he⟩ := List.mem_flatMap.1 he
      exact ih (noRefs_firstValue hy (by simpa using hv)) e he
    · simp at he
  | case4 cs => exact noRefs_selectBlock hy none cs
  | case5 cs p ih =>
    intro e he
    simp only [lookupBy] at he
    obtain ⟨v, hv, he⟩ := List.mem_flatMap.1 he
    exact ih (noRefs_selectBlock hy _ _ v hv) e he
  | case6 is cs => exact noRefs_selectBlock hy (some is) cs
  | case7 is cs p ih =>
    intro e he
    simp only [lookupBy] at he
    obtain ⟨v, hv, he⟩ := List.mem_flatMap.1 he
    exact ih (noRefs_selectBlock hy _ _ v hv) e he

theorem list2_values (Γ : Nat → Ty) {ys : List Yaml} (h : ∀ y ∈ ys, NoRefs y) : List2 (HasValue Γ) ys (ys.map anyValue) := by
  induction ys with
  | nil => exact .nil
  | cons y t ih => exact .cons ((hasValue_iff Γ (h y (by simp)) _).2 rfl) (ih fun y hy => h y (by simp [hy]))

/-! ## The property -/

/-- **C69.** Take a text without references `*name`. It is deserialized, and what find_values finds in it is, value by value and in order, among what
the path leads to in the deserialized data. -/
theorem C69_find_in_data (T : CharTables) (Γ : Nat → Ty) (s : Str) (d : Document) (path : YamlPath) (hp : parseYamlFile T s = .ok d)
    (hr : DocNoRefs d) :
    ∃ n v, fromYamlStr T Γ n .any s = .ok v ∧
      ∃ xs, List2 (HasValue Γ) (d.findValues path).1 xs ∧ xs.Sublist (valuesAt path v) := by
  obtain ⟨root, hroot, -⟩ := (C47_text T Γ 0 .any s).1 d hp
  have h1 : NoRefs root := hr root (by rw [hroot]; simp)
  obtain ⟨n, hn⟩ := (docHasValue_text T Γ hp (anyValue root)).1 ⟨root, hroot, (hasValue_iff Γ h1 _).2 rfl⟩
  rw [C23_find_parsed T s d path hp, hroot]
  simp only [List.flatMap_cons, List.flatMap_nil, List.append_nil]
  exact ⟨n, anyValue root, hn, _, list2_values Γ (noRefs_lookup path h1), lookup_sub path root⟩

/-- **C69.** If the text has no flow collections either, and the conditions of the path compare with texts that are strings, find_values finds all that
the path leads to, and nothing else. -/
theorem C69_find_all (T : CharTables) (Γ : Nat → Ty) (s : Str) (d : Document) (path : YamlPath) (hp : parseYamlFile T s = .ok d)
    (hr : DocNoRefs d) (hf : ∀ y ∈ yamlItems d, NoFlow y) (hc : StringConditions path) :
    ∃ n v, fromYamlStr T Γ n .any s = .ok v ∧ List2 (HasValue Γ) (d.findValues path).1 (valuesAt path v) := by
  obtain ⟨root, hroot, -⟩ := (C47_text T Γ 0 .any s).1 d hp
  have h1 : NoRefs root := hr root (by rw [hroot]; simp)
  obtain ⟨n, hn⟩ := (docHasValue_text T Γ hp (anyValue root)).1 ⟨root, hroot, (hasValue_iff Γ h1 _).2 rfl⟩
  rw [C23_find_parsed T s d path hp, hroot]
  simp only [List.flatMap_cons, List.flatMap_nil, List.append_nil]
  refine ⟨n, anyValue root, hn, ?_⟩
  rw [← lookup_same path hc (hf root (by rw [hroot]; simp))]
  exact list2_values Γ (noRefs_lookup path h1)

/-- C69 is not vacuous: a text with two maps in a sequence, a path with a condition, and what it leads to. -/
theorem C69_example (Γ : Nat → Ty) :
    ∃ d, parseYamlFile asciiTables c!"---\nxs:\n  - n: a # c\n    v: 1\n  - n: 'b'\n    v: on\n" = .ok d ∧ DocNoRefs d ∧
      (∀ y ∈ yamlItems d, NoFlow y) ∧
      StringConditions (.key c!"xs" [] (some (.allIndexes [⟨c!"n", c!"b"⟩] (some (.key c!"v" [] none))))) ∧
      (d.findValues (.key c!"xs" [] (some (.allIndexes [⟨c!"n", c!"b"⟩] (some (.key c!"v" [] none)))))).1 = [plain c!"on"] ∧
      fromYamlStr asciiTables Γ 5 .any c!"---\nxs:\n  - n: a # c\n    v: 1\n  - n: 'b'\n    v: on\n" =
        .ok (.map [(.str c!"xs", .seq [.map [(.str c!"n", .str c!"a"), (.str c!"v", .int 1)],
          .map [(.str c!"n", .str c!"b"), (.str c!"v", .str c!"on")]])]) := by
  have hp : parseYamlFile asciiTables c!"---\nxs:\n  - n: a # c\n    v: 1\n  - n: 'b'\n    v: on\n" =
      .ok (docOf (.hash [kv c!"xs" (.array [
        elem (.hash [kv c!"n" (plain c!"a"), .inlineComment c!" c", kv c!"v" (plain c!"1")]),
        elem (.hash [kv c!"n" (.singleQuotedString [.string c!"b"]), kv c!"v" (plain c!"on")])])])) := by kernel_rfl
  refine ⟨_, hp, ?_, ?_, ⟨by simp, by intro c hc; rw [List.mem_singleton] at hc; subst hc; kernel_rfl, by intro c hc; simp at hc⟩, by kernel_rfl, by kernel_rfl⟩
  · intro y hy
    simp only [yamlItems, docOf, List.filterMap_cons, List.filterMap_nil, List.mem_singleton] at hy
    subst hy
    refine noRefs_map rfl fun k w hw => ?_
    simp only [entriesOf, kv, List.filterMap_cons, List.filterMap_nil, List.mem_singleton, Prod.mk.injEq] at hw
    obtain ⟨-, rfl⟩ := hw
    refine noRefs_seq rfl fun w hw => ?_
    simp only [elementsOf, elem, List.filterMap_cons, List.filterMap_nil, List.mem_cons, List.not_mem_nil, or_false] at hw
    rcases hw with rfl | rfl <;> refine noRefs_map rfl fun k w hw => ?_ <;>
      simp only [entriesOf, kv, List.filterMap_cons, List.filterMap_nil, List.mem_cons, List.not_mem_nil, or_false, Prod.mk.injEq] at hw <;>
      rcases hw with ⟨-, rfl⟩ | ⟨-, rfl⟩ <;> exact noRefs_scalar rfl
  · intro y hy
    simp only [yamlItems, docOf, List.filterMap_cons, List.filterMap_nil, List.mem_singleton] at hy
    subst hy
    refine .hash ?_
    simp only [kv, elem, plain, List.mem_singleton, HashData.element.injEq, HashElement.mk.injEq, AliasedYaml.mk.injEq, and_imp]
    rintro _ _ _ rfl rfl rfl
    refine .array ?_
    simp only [List.mem_cons, ArrayData.element.injEq, AliasedYaml.mk.injEq, List.not_mem_nil, or_false]
    rintro _ _ (⟨rfl, rfl⟩ | ⟨rfl, rfl⟩)
    · refine .hash ?_
      simp only [List.mem_cons, HashData.element.injEq, HashElement.mk.injEq, AliasedYaml.mk.injEq, List.not_mem_nil, or_false, reduceCtorEq, false_or]
      rintro _ _ _ (⟨rfl, rfl, rfl⟩ | ⟨rfl, rfl, rfl⟩) <;> exact .unquoted _
    · refine .hash ?_
      simp only [List.mem_cons, HashData.element.injEq, HashElement.mk.injEq, AliasedYaml.mk.injEq, List.not_mem_nil, or_false, reduceCtorEq, false_or]
      rintro _ _ _ (⟨rfl, rfl, rfl⟩ | ⟨rfl, rfl, rfl⟩)
      · exact .single _
      · exact .unquoted _

/-- With flow collections it is not all: the data under `a.x` is there, and is not found. -/
theorem C69_counterexample_flow (Γ : Nat → Ty) :
    ∃ d v, parseYamlFile asciiTables c!"---\na: {x: 1}\n" = .ok d ∧ fromYamlStr asciiTables Γ 5 .any c!"---\na: {x: 1}\n" = .ok v ∧
      (d.findValues (.key c!"a" [] (some (.key c!"x" [] none)))).1 = [] ∧
      valuesAt (.key c!"a" [] (some (.key c!"x" [] none))) v = [.int 1] := by
  refine ⟨docOf (.hash [kv c!"a" (.inlineHash [(c!"x", plain c!"1")])]), .map [(.str c!"a", .map [(.str c!"x", .int 1)])],
    by kernel_rfl, by kernel_rfl, by kernel_rfl, ?_⟩
  simp [valuesAt, AllHold, entryOf]

/-- With conditions on numbers it is not all: conditions compare texts, and a number has several. -/
theorem C69_counterexample_number (Γ : Nat → Ty) :
    ∃ d v, parseYamlFile asciiTables c!"---\na: +1\nb: 2\n" = .ok d ∧ fromYamlStr asciiTables Γ 5 .any c!"---\na: +1\nb: 2\n" = .ok v ∧
      (d.findValues (.key c!"b" [⟨c!"a", c!"1"⟩] none)).1 = [] ∧
      valuesAt (.key c!"b" [⟨c!"a", c!"1"⟩] none) v = [.int 2] := by
  refine ⟨docOf (.hash [kv c!"a" (plain c!"+1"), kv c!"b" (plain c!"2")]), .map [(.str c!"a", .int 1), (.str c!"b", .int 2)],
    by kernel_rfl, by kernel_rfl, by kernel_rfl, ?_⟩
  have h : AllHold [⟨c!"a", c!"1"⟩] (.map [(.str c!"a", .int 1), (.str c!"b", .int 2)]) := by
    intro c hc
    simp only [List.mem_singleton] at hc
    subst hc
    exact ⟨_, [], .int 1, _, rfl, ⟨rfl, by simp⟩, .inr (by kernel_rfl)⟩
  simp only [valuesAt, h, if_true]
  simp [entryOf]

end YamlSubset
