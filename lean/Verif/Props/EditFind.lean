import Verif.Props.Edit

/-! # Lookup after edits (C18, C19, C20, C21, C22, C23, C24, C25) -/

namespace YamlSubset

open Spec

/-! ## C24: conditions -/

/-- **C24.** A node satisfies conditions iff for each condition the first entry with the field
name exists and has exactly the given string value. -/
theorem C24_conditions (y : Yaml) (cs : List Condition) : y.fitsConditions cs = true ↔ Fits cs y :=
  fitsConditions_iff y cs

example : Fits [⟨"t".toList, "x".toList⟩] (.hash [.comment [], .element ⟨"t".toList, ⟨none, .unquotedString "x".toList⟩⟩]) := by
  rw [← C24_conditions]; decide +kernel
example : ¬ Fits [⟨"t".toList, "y".toList⟩] (.hash [.comment [], .element ⟨"t".toList, ⟨none, .unquotedString "x".toList⟩⟩]) := by
  rw [← C24_conditions]; decide +kernel

/-! ## C23: find_values -/

theorem forHash_readonly {A : Type} [Additive A] (f : HashElement → A × HashElement) (r : Yaml → A × Yaml)
    (hf : ∀ e, (f e).2 = e) (hr : ∀ y, (r y).2 = y) (path : YamlPath) (y : Yaml) :
    (Yaml.forHash f r path y).2 = y := by
  have hover : ∀ cs (g : Yaml → A × Yaml) c es, (∀ e ∈ es, (g e).2 = e) → (overInline cs g c es).2 = es := by
    intro cs g c es hg
    rw [overInline_snd]
    conv => rhs; rw [← List.map_id es]
    apply List.map_congr_left
    intro e he
    simp [visitTree, hg e he]
  have hat : ∀ cs (g : Yaml → A × Yaml) is c es, (∀ e ∈ es, (g e).2 = e) → (atInline cs g is c es).2 = es := by
    intro cs g is c es hg
    rw [atInline_snd]
    apply foldl_modify_fixed
    intro i _ e he
    simp [visitTree, hg e (List.mem_iff_getElem?.2 ⟨i, he⟩)]
  have hall : ∀ cs (g : Yaml → A × Yaml) (hg : ∀ e, (g e).2 = e) n y, (forAllIndexes cs g n y).2 = y := by
    intro cs g hg n
    induction n with
    | zero => intro y; rfl
    | succ n ih =>
      intro y
      cases y with
      | inlineArray es => simp only [forAllIndexes]; rw [hover _ _ _ _ fun e _ => ih e]
      | array ds =>
        simp only [forAllIndexes, overArray_values]
        rw [hover _ _ _ _ fun e _ => hg e, setValues_self]
      | _ => rfl
  have hidx : ∀ is cs (g : Yaml → A × Yaml) (hg : ∀ e, (g e).2 = e) n y, (forIndexes is cs g n y).2 = y := by
    intro is cs g hg n
    induction n with
    | zero => intro y; rfl
    | succ n ih =>
      intro y
      cases y with
      | inlineArray es => simp only [forIndexes]; rw [hat _ _ _ _ _ fun e _ => ih e]
      | array ds =>
        simp only [forIndexes, atArray_values]
        rw [hat _ _ _ _ _ fun e _ => hg e, setValues_self]
      | _ => rfl
  have hkey : ∀ k cs (g : HashElement → A × HashElement) (hg : ∀ e, (g e).2 = e) y, (forKey k cs g y).2 = y := by
    intro k cs g hg y
    unfold forKey
    split
    · split
      · rename_i i data _
        split
        · rename_i e he
          simp only [hg]
          obtain ⟨a, b, rfl, rfl⟩ := split_at he
          rw [set_append_length]
        · rfl
      · rfl
    · rfl
  induction path using lastKey.induct generalizing y with
  | case1 cs => simp only [Yaml.forHash]; split; exact hr y; rfl
  | case2 k cs =>
    exact hkey _ _ _ (fun e => by split; exact hf e; rfl) _
  | case3 k cs p ih => exact hkey _ _ _ (fun e => by obtain ⟨k, ⟨a, v⟩⟩ := e; simp [ih]) _
  | case4 cs => exact hall _ _ hr _ _
  | case5 cs p ih => exact hall _ _ ih _ _
  | case6 is cs => exact hidx _ _ _ hr _ _
  | case7 is cs p ih => exact hidx _ _ _ ih _ _

/-- **C23.** find_values does not change the document. -/
theorem C23_find_readonly (d : Document) (path : YamlPath) : (d.findValues path).2 = d := by
  unfold Document.findValues
  have key : ∀ (is : List DocumentData) c, (Document.overItems.go (Yaml.findValues path) c is).2 = is := by
    intro is
    induction is with
    | nil => intro c; rfl
    | cons i t ih =>
      intro c
      cases i with
      | comment s => simp only [Document.overItems.go, ih]
      | yaml y =>
        simp only [Document.overItems.go, ih]
        congr 2
        exact forHash_readonly _ _ (fun _ => rfl) (fun _ => rfl) path y
  show ({ d with items := (Document.overItems.go _ _ d.items).2 } : Document) = d
  rw [key]

theorem find_readonly (path : YamlPath) (y : Yaml) : (y.findValues path).2 = y :=
  forHash_readonly _ _ (fun _ => rfl) (fun _ => rfl) path y

theorem firstValue_keyValue (k : Str) (y : Yaml) : firstValue k y = (y.keyValue k).map AliasedYaml.value := by
  cases y with
  | hash ds =>
    simp only [firstValue, Yaml.keyValue]
    induction ds with
    | nil => rfl
    | cons d t ih =>
      match d with
      | .element ⟨k', ⟨a, v⟩⟩ =>
        rw [List.findSome?_cons, keyValueIn]
        by_cases h : k' = k
        · simp [h]
        · simp only [h, if_false]; exact ih
      | .comment c => rw [List.findSome?_cons, keyValueIn]; exact ih; simp
      | .inlineComment c => rw [List.findSome?_cons, keyValueIn]; exact ih; simp
  | _ => rfl

theorem Spec.FirstEntry.firstValue {k : Str} {ds pre post : List HashData} {v : AliasedYaml}
    (h : FirstEntry k ds pre v post) : firstValue k (.hash ds) = some v.value := by
  rw [firstValue_keyValue, Yaml.keyValue, h.keyValueIn]; rfl

theorem firstValue_none {k : Str} {ds : List HashData} (h : k ∉ keysOf ds) : firstValue k (.hash ds) = none := by
  rw [firstValue_keyValue, Yaml.keyValue]
  cases hk : keyValueIn k ds with
  | none => rfl
  | some v =>
    obtain ⟨pre, post, rfl, -⟩ := keyValueIn_spec _ _ _ hk
    simp [keysOf] at h

theorem flatMap_visitVal {α} (cs : List Condition) (g : Yaml → List α × Yaml) (es : List Yaml) :
    open Classical in
    es.flatMap (visitVal cs g) = (es.filter fun e => Fits cs e).flatMap fun e => (g e).1 := by
  induction es with
  | nil => rfl
  | cons e t ih =>
    rw [List.flatMap_cons, ih, List.filter_cons]
    by_cases h : Fits cs e
    · have h' := (fitsConditions_iff e cs).2 h
      simp [visitVal, h, h']
    · have h' : e.fitsConditions cs = false := by
        cases hb : e.fitsConditions cs with
        | false => rfl
        | true => exact absurd ((fitsConditions_iff e cs).1 hb) h
      simp [visitVal, h, h', Additive.zero]

/-- **C23.** When no index step of the path meets an inline array, find_values equals a direct recursive lookup of
the path: values in the order of the path's indexes and of the document. (For other trees see
`C23_find_exact`.) -/
theorem C23_find_off_inline (path : YamlPath) (y : Yaml) (hy : AvoidsInline path y) :
    (y.findValues path).1 = lookup path y := by
  have hkey : ∀ k cs (g : HashElement → List Yaml × HashElement) (y : Yaml),
      open Classical in (forKey k cs g y).1 = if Fits cs y then ((y.keyValue k).map fun v => (g ⟨k, v⟩).1).getD [] else [] := by
    intro k cs g y
    unfold forKey
    by_cases h : Fits cs y
    · rw [if_pos ((fitsConditions_iff y cs).2 h), if_pos h]
      cases y with
      | hash data =>
        simp only [Yaml.keyIndex, Yaml.keyValue]
        cases hi : data.findIdx? (HashData.hasKey k) with
        | none =>
          have := firstValue_none (findIdx_none _ _ hi)
          rw [firstValue_keyValue, Yaml.keyValue, Option.map_eq_none_iff] at this
          rw [this]; rfl
        | some i =>
          obtain ⟨pre, v, post, hfe, rfl⟩ := findIdx_spec _ _ _ hi
          simp only [hfe.get, hfe.keyValueIn]; rfl
      | _ => rfl
    · have h' : y.fitsConditions cs = false := by
        cases hb : y.fitsConditions cs with
        | false => rfl
        | true => exact absurd ((fitsConditions_iff y cs).1 hb) h
      rw [if_neg h, h']; rfl
  have hfilter1 : ∀ (l : List Yaml), (l.flatMap fun e => [e]) = l := by
    intro l; induction l <;> simp_all
  unfold Yaml.findValues
  induction path using lastKey.induct generalizing y with
  | case1 cs =>
    simp only [Yaml.forHash, lookup]
    by_cases h : Fits cs y
    · rw [if_pos ((fitsConditions_iff y cs).2 h), if_pos h]
    · have h' : y.fitsConditions cs = false := by
        cases hb : y.fitsConditions cs with
        | false => rfl
        | true => exact absurd ((fitsConditions_iff y cs).1 hb) h
      rw [if_neg h, h']; rfl
  | case2 k cs =>
    simp only [Yaml.forHash, lookup, hkey, firstValue_keyValue]
    cases hk : y.keyValue k <;> simp
  | case3 k cs p ih =>
    simp only [Yaml.forHash, lookup, hkey, firstValue_keyValue]
    cases hk : y.keyValue k with
    | none => simp
    | some v => simp [ih v.value (hy _ (by rw [firstValue_keyValue, hk]; rfl))]
  | case4 cs =>
    simp only [Yaml.forHash, lookup]
    cases y with
    | array ds =>
      simp only [forAllIndexes, overArray_values, overInline_list, Additive.zero, List.nil_append,
        flatMap_visitVal, hfilter1]; rfl
    | inlineArray es => exact absurd rfl (hy es)
    | _ => rfl
  | case5 cs p ih =>
    simp only [Yaml.forHash, lookup]
    cases y with
    | array ds =>
      simp only [forAllIndexes, overArray_values, overInline_list, Additive.zero, List.nil_append,
        flatMap_visitVal]
      simp only [elements, List.flatMap]
      congr 1
      apply List.map_congr_left
      intro e he
      exact ih e (hy.2 e (List.mem_filter.1 he).1)
    | inlineArray es => exact absurd rfl (hy.1 es)
    | _ => rfl
  | case6 is cs =>
    simp only [Yaml.forHash, lookup]
    cases y with
    | array ds =>
      simp only [forIndexes, atArray_values]
      rw [atInline_list _ _ (fun _ => rfl)]
      simp only [Additive.zero, List.nil_append, flatMap_visitVal, hfilter1]; rfl
    | inlineArray es => exact absurd rfl (hy es)
    | _ => simp [forIndexes, elements, Additive.zero]
  | case7 is cs p ih =>
    simp only [Yaml.forHash, lookup]
    cases y with
    | array ds =>
      simp only [forIndexes, atArray_values]
      rw [atInline_list _ _ (forHash_readonly _ _ (fun _ => rfl) (fun _ => rfl) p)]
      simp only [Additive.zero, List.nil_append, flatMap_visitVal]
      simp only [elements, List.flatMap]
      congr 1
      apply List.map_congr_left
      intro e he
      have hm := (List.mem_filter.1 he).1
      obtain ⟨i, -, hi⟩ := List.mem_filterMap.1 hm
      exact ih e (hy.2 e (List.mem_iff_getElem?.2 ⟨i, hi⟩))
    | inlineArray es => exact absurd rfl (hy.1 es)
    | _ => simp [forIndexes, elements, Additive.zero]

/-- C23 is not vacuous: a path with an index and a condition in a tree of block collections. -/
def sampleTree : Yaml :=
  .hash [.element ⟨"k".toList, ⟨none, .array
    [.element ⟨none, .hash [.element ⟨"t".toList, ⟨none, .unquotedString "x".toList⟩⟩,
      .element ⟨"v".toList, ⟨none, .unquotedString "1".toList⟩⟩]⟩, .comment "c".toList,
     .element ⟨none, .hash [.element ⟨"t".toList, ⟨none, .unquotedString "y".toList⟩⟩,
      .element ⟨"v".toList, ⟨none, .unquotedString "2".toList⟩⟩]⟩]⟩⟩]

/-- `k[*]|t=y.v` -/
def samplePath : YamlPath :=
  .key "k".toList [] (some (.allIndexes [⟨"t".toList, "y".toList⟩] (some (.key "v".toList [] none))))

example : AvoidsInline samplePath sampleTree := by
  intro v hv
  have : v = .array _ := (Option.some.inj hv).symm
  subst this
  exact ⟨by simp, fun e _ => trivial⟩
example : (sampleTree.findValues samplePath).1 = [.unquotedString "2".toList] := by rfl

/-! ## C25: inline arrays -/

/-- **C25 (refuted).** The same array, written inline instead of as a block: `k[*]` finds its elements only
in the block form, whereas the direct lookup finds them in both. -/
theorem C25_inline_array_counterexample :
    ∃ path block inline_, elements block = elements inline_ ∧
      (Yaml.findValues path block).1 ≠ [] ∧ (Yaml.findValues path inline_).1 = [] ∧
      (Yaml.findValues path inline_).1 ≠ lookup path inline_ := by
  refine ⟨.allIndexes [] none, .array [.element ⟨none, .unquotedString ['x']⟩], .inlineArray [.unquotedString ['x']],
    rfl, by decide +kernel, by decide +kernel, ?_⟩
  have h1 : (Yaml.findValues (.allIndexes [] none) (.inlineArray [.unquotedString ['x']])).1 = [] := by
    decide +kernel
  rw [h1]
  simp [lookup, elements, Fits]

/-- **C25.** What holds: inserts and removals (unlike lookups) treat inline arrays like block arrays: the count and the
elements afterwards agree, for `[*]` and for listed indexes. -/
theorem C25_edits_same (cs : List Condition) (is : List Nat) (p : YamlPath) (h : AliasedYaml) (o : Bool)
    (ds : List ArrayData) :
    (∀ path ∈ [YamlPath.allIndexes cs (some p), .indexes is cs (some p)],
      (let b := Yaml.insertIntoHash path h o (.array ds)
       let i := Yaml.insertIntoHash path h o (.inlineArray (elementValues ds))
       b.1 = i.1 ∧ elements b.2 = elements i.2) ∧
      (let b := Yaml.removeFromHash path (.array ds)
       let i := Yaml.removeFromHash path (.inlineArray (elementValues ds))
       b.1 = i.1 ∧ elements b.2 = elements i.2)) := by
  intro path hp
  simp only [List.mem_cons, List.not_mem_nil, or_false] at hp
  rcases hp with rfl | rfl <;>
    simp only [Yaml.insertIntoHash, Yaml.removeFromHash, Yaml.editHash, overArray_values, atArray_values, elements,
      true_and] <;> constructor <;>
    rw [elementValues_setValues] <;> simp [overInline_snd, atInline_length]

/-! ## C19: insert is idempotent -/

theorem visitTree_visitTree {A : Type} [Additive A] (cs : List Condition) (g : Yaml → A × Yaml)
    (hg : ∀ y, (g (g y).2).2 = (g y).2) (e : Yaml) : visitTree cs g (visitTree cs g e) = visitTree cs g e := by
  unfold visitTree
  split
  · split
    · exact hg e
    · rfl
  · rename_i h; simp [h]

theorem editHash_idempotent (f : List HashData → Str → Option Nat → Nat × List HashData)
    (hf : ∀ data k,
      let d' := (f data k (data.findIdx? (HashData.hasKey k))).2
      (f d' k (d'.findIdx? (HashData.hasKey k))).2 = d')
    (path : YamlPath) (y : Yaml) : (Yaml.editHash f path (Yaml.editHash f path y).2).2 = (Yaml.editHash f path y).2 := by
  have hover : ∀ cs (g : Yaml → Nat × Yaml) (hg : ∀ y, (g (g y).2).2 = (g y).2) c c' es,
      (overInline cs g c' (overInline cs g c es).2).2 = (overInline cs g c es).2 := by
    intro cs g hg c c' es
    simp only [overInline_snd, List.map_map]
    apply List.map_congr_left
    intro e _
    exact visitTree_visitTree cs g hg e
  have hat : ∀ cs (g : Yaml → Nat × Yaml) (hg : ∀ y, (g (g y).2).2 = (g y).2) is c c' es,
      (atInline cs g is c' (atInline cs g is c es).2).2 = (atInline cs g is c es).2 := by
    intro cs g hg is c c' es
    rw [atInline_snd cs g is c' (atInline cs g is c es).2, atInline_snd]
    apply foldl_modify_fixed
    intro i hi e he
    obtain ⟨e₀, -, rfl⟩ := foldl_modify_mem (visitTree cs g) (fun _ => True) (fun _ _ => trivial) is es
      (fun _ _ => trivial) i hi e he
    exact visitTree_visitTree cs g hg e₀
  induction path using lastKey.induct generalizing y with
  | case1 cs => rfl
  | case2 k cs =>
    cases y with
    | hash data =>
      simp only [Yaml.editHash]
      split
      · simp only [Yaml.editHash]
        split
        · simp only [Yaml.keyIndex]
          exact congrArg Yaml.hash (hf data k)
        · rfl
      · rename_i h; simp only [Yaml.editHash, h]; rfl
    | _ => simp [editHash_key_other]
  | case3 k cs p ih =>
    cases y with
    | hash data =>
      simp only [Yaml.editHash]
      split
      · simp only [Yaml.keyIndex]
        cases hi : data.findIdx? (HashData.hasKey k) with
        | none =>
          rename_i hfit
          simp only [Yaml.editHash, hfit, if_true, Yaml.keyIndex, hi]
        | some i =>
          obtain ⟨pre, ⟨a, w⟩, post, hfe, rfl⟩ := findIdx_spec _ _ _ hi
          simp only [hfe.get]
          rw [hfe.1, set_append_length]
          simp only [Yaml.editHash]
          split
          · have hfe' : FirstEntry k (pre ++ .element ⟨k, ⟨a, (Yaml.editHash f p w).2⟩⟩ :: post) pre
                ⟨a, (Yaml.editHash f p w).2⟩ post := ⟨rfl, hfe.2⟩
            simp only [Yaml.keyIndex, hfe'.findIdx, hfe'.get, ih]
            rw [set_append_length]
          · rfl
      · rename_i h; simp only [Yaml.editHash, h]; rfl
    | _ => simp [editHash_key_other]
  | case4 cs => cases y <;> rfl
  | case5 cs p ih =>
    cases y with
    | inlineArray es => simp only [Yaml.editHash, hover _ _ ih]
    | array ds =>
      simp only [Yaml.editHash, overArray_values]
      have hl : (overInline cs (Yaml.editHash f p) 0 (elementValues ds)).2.length = (elementValues ds).length := by
        simp [overInline_snd]
      rw [elementValues_setValues _ _ hl, setValues_setValues _ _ _ hl, hover _ _ ih]
      rw [hover _ _ ih, hl]
    | _ => rfl
  | case6 is cs => cases y <;> rfl
  | case7 is cs p ih =>
    cases y with
    | inlineArray es => simp only [Yaml.editHash, hat _ _ ih]
    | array ds =>
      simp only [Yaml.editHash, atArray_values]
      have hl : (atInline cs (Yaml.editHash f p) is 0 (elementValues ds)).2.length = (elementValues ds).length :=
        atInline_length _ _ _ _ _
      rw [elementValues_setValues _ _ hl, setValues_setValues _ _ _ hl, hat _ _ ih]
      rw [hat _ _ ih, hl]
    | _ => rfl

theorem firstEntry_append {k : Str} {ds : List HashData} (h : k ∉ keysOf ds) (v : AliasedYaml) :
    FirstEntry k (ds ++ [.element ⟨k, v⟩]) ds v [] := ⟨rfl, h⟩

theorem insertClosure_idempotent (h : AliasedYaml) (o : Bool) (data : List HashData) (k : Str) :
    let d' := (insertClosure h o data k (data.findIdx? (HashData.hasKey k))).2
    (insertClosure h o d' k (d'.findIdx? (HashData.hasKey k))) = (if o then 1 else 0, d') := by
  simp only [insertClosure]
  cases hi : data.findIdx? (HashData.hasKey k) with
  | none =>
    have hfe := firstEntry_append (findIdx_none _ _ hi) h
    simp only [hfe.findIdx]
    cases o with
    | true => simp
    | false => simp
  | some i =>
    obtain ⟨pre, v, post, hfe, rfl⟩ := findIdx_spec _ _ _ hi
    cases o with
    | true =>
      simp only [if_true]
      rw [hfe.1, set_append_length]
      have hfe' : FirstEntry k (pre ++ .element ⟨k, h⟩ :: post) pre h post := ⟨rfl, hfe.2⟩
      simp only [hfe'.findIdx]
      rw [set_append_length]
    | false => simp only [Bool.false_eq_true, if_false, hi]

theorem overItems_idempotent (g : Yaml → Nat × Yaml) (hg : ∀ y, (g (g y).2).2 = (g y).2) (d : Document) :
    ((d.overItems g).2.overItems g).2 = (d.overItems g).2 := by
  have key : ∀ (is : List DocumentData) c c',
      (Document.overItems.go g c' (Document.overItems.go g c is).2).2 = (Document.overItems.go g c is).2 := by
    intro is
    induction is with
    | nil => intro c c'; rfl
    | cons i t ih =>
      intro c c'
      cases i with
      | comment s => simp only [Document.overItems.go, ih]
      | yaml y => simp only [Document.overItems.go, ih, hg]
  simp only [Document.overItems, key]

/-- **C19.** Repeating an insert with the same arguments leaves the document as after the first call (for any
path, with conditions and repeated indexes, with or without overwrite). -/
theorem C19_insert_idempotent (d : Document) (path : YamlPath) (h : AliasedYaml) (o : Bool) :
    ((d.insertIntoHash path h o).2.insertIntoHash path h o).2 = (d.insertIntoHash path h o).2 := by
  apply overItems_idempotent
  intro y
  apply editHash_idempotent
  intro data k
  have := insertClosure_idempotent h o data k
  simp only at this ⊢
  rw [this]

theorem editHash_second_zero (f : List HashData → Str → Option Nat → Nat × List HashData)
    (hf : ∀ data k,
      let d' := (f data k (data.findIdx? (HashData.hasKey k))).2
      f d' k (d'.findIdx? (HashData.hasKey k)) = (0, d'))
    (path : YamlPath) (y : Yaml) :
    Yaml.editHash f path (Yaml.editHash f path y).2 = (0, (Yaml.editHash f path y).2) := by
  have hidem : ∀ p y, (Yaml.editHash f p (Yaml.editHash f p y).2).2 = (Yaml.editHash f p y).2 :=
    editHash_idempotent f fun data k => by
      have := hf data k
      simp only at this ⊢
      rw [this]
  refine Prod.ext ?_ (hidem path y)
  show (Yaml.editHash f path (Yaml.editHash f path y).2).1 = 0
  have hval : ∀ cs (g : Yaml → Nat × Yaml) (hg : ∀ y, (g (g y).2).1 = 0) e,
      visitVal cs g (visitTree cs g e) = 0 := by
    intro cs g hg e
    unfold visitVal visitTree
    by_cases h : e.fitsConditions cs = true
    · simp only [h, if_true]
      split
      · exact hg e
      · rfl
    · simp [h, Additive.zero]
  have hover : ∀ cs (g : Yaml → Nat × Yaml) (hg : ∀ y, (g (g y).2).1 = 0) c es,
      (overInline cs g 0 (overInline cs g c es).2).1 = 0 := by
    intro cs g hg c es
    rw [overInline_nat, overInline_snd, List.map_map]
    have : es.map (visitVal cs g ∘ visitTree cs g) = es.map fun _ => 0 := by
      apply List.map_congr_left
      intro e _
      exact hval cs g hg e
    rw [this]
    clear this
    induction es with
    | nil => rfl
    | cons a t ih => simpa using ih
  have hat : ∀ cs (g : Yaml → Nat × Yaml) (hg : ∀ y, (g (g y).2).1 = 0)
      (hg2 : ∀ y, (g (g y).2).2 = (g y).2) is c es,
      (atInline cs g is 0 (atInline cs g is c es).2).1 = 0 := by
    intro cs g hg hg2 is c es
    rw [atInline_fixed]
    intro i hi e he
    rw [atInline_snd] at he
    obtain ⟨e₀, -, rfl⟩ := foldl_modify_mem (visitTree cs g) (fun _ => True) (fun _ _ => trivial) is es
      (fun _ _ => trivial) i hi e he
    exact ⟨hval cs g hg e₀, visitTree_visitTree cs g hg2 e₀⟩
  induction path using lastKey.induct generalizing y with
  | case1 cs => rfl
  | case2 k cs =>
    cases y with
    | hash data =>
      simp only [Yaml.editHash]
      split
      · simp only [Yaml.editHash]
        split
        · simp only [Yaml.keyIndex]
          exact congrArg Prod.fst (hf data k)
        · rfl
      · rename_i h; simp only [Yaml.editHash, h]; rfl
    | _ => simp [editHash_key_other]
  | case3 k cs p ih =>
    cases y with
    | hash data =>
      simp only [Yaml.editHash]
      split
      · simp only [Yaml.keyIndex]
        cases hi : data.findIdx? (HashData.hasKey k) with
        | none =>
          rename_i hfit
          simp only [Yaml.editHash, hfit, if_true, Yaml.keyIndex, hi]
        | some i =>
          obtain ⟨pre, ⟨a, w⟩, post, hfe, rfl⟩ := findIdx_spec _ _ _ hi
          simp only [hfe.get]
          rw [hfe.1, set_append_length]
          simp only [Yaml.editHash]
          split
          · have hfe' : FirstEntry k (pre ++ .element ⟨k, ⟨a, (Yaml.editHash f p w).2⟩⟩ :: post) pre
                ⟨a, (Yaml.editHash f p w).2⟩ post := ⟨rfl, hfe.2⟩
            simp only [Yaml.keyIndex, hfe'.findIdx, hfe'.get, ih]
          · rfl
      · rename_i h; simp only [Yaml.editHash, h]; rfl
    | _ => simp [editHash_key_other]
  | case4 cs => cases y <;> rfl
  | case5 cs p ih =>
    cases y with
    | inlineArray es => simp only [Yaml.editHash, hover _ _ ih]
    | array ds =>
      simp only [Yaml.editHash, overArray_values]
      have hl : (overInline cs (Yaml.editHash f p) 0 (elementValues ds)).2.length = (elementValues ds).length := by
        simp [overInline_snd]
      rw [elementValues_setValues _ _ hl, hover _ _ ih]
    | _ => rfl
  | case6 is cs => cases y <;> rfl
  | case7 is cs p ih =>
    cases y with
    | inlineArray es => simp only [Yaml.editHash, hat _ _ ih (hidem p)]
    | array ds =>
      simp only [Yaml.editHash, atArray_values]
      have hl : (atInline cs (Yaml.editHash f p) is 0 (elementValues ds)).2.length = (elementValues ds).length :=
        atInline_length _ _ _ _ _
      rw [elementValues_setValues _ _ hl, hat _ _ ih (hidem p)]
    | _ => rfl

/-- **C19.** Without overwrite the second call returns 0. -/
theorem C19_second_insert_zero (d : Document) (path : YamlPath) (h : AliasedYaml) :
    ((d.insertIntoHash path h false).2.insertIntoHash path h false).1 = 0 := by
  have hg : ∀ y, Yaml.insertIntoHash path h false (Yaml.insertIntoHash path h false y).2 =
      (0, (Yaml.insertIntoHash path h false y).2) := by
    intro y
    exact editHash_second_zero _ (fun data k => insertClosure_idempotent h false data k) path y
  have key : ∀ (is : List DocumentData) c, (Document.overItems.go (Yaml.insertIntoHash path h false) 0
      (Document.overItems.go (Yaml.insertIntoHash path h false) c is).2).1 = 0 := by
    intro is
    induction is with
    | nil => intro c; rfl
    | cons i t ih =>
      intro c
      cases i with
      | comment s =>
        simp only [Document.overItems.go]
        exact ih _
      | yaml y =>
        simp only [Document.overItems.go, hg]
        exact ih _
  exact key d.items _

/-- C19 is not vacuous: the first call inserts. -/
example : (Yaml.insertIntoHash (.key "k".toList [] (some (.indexes [1, 0, 1] [] (some (.key "w".toList [] none)))))
    ⟨none, .unquotedString "2".toList⟩ false sampleTree).1 = 2 := by decide +kernel

end YamlSubset
