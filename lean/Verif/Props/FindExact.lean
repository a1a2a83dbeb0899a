import Verif.Spec.EditBlock
import Verif.Props.EditWhere
import Verif.Props.Parse

/-! # What lookups find, for every tree (C23, C24, C25) -/

namespace YamlSubset

open Spec

/-! ## Index steps -/

theorem inlineDepthList_mem {es : List Yaml} {e : Yaml} (h : e ∈ es) : inlineDepth e ≤ inlineDepthList es := by
  induction es with
  | nil => cases h
  | cons x t ih =>
    simp only [inlineDepthList]
    rcases List.mem_cons.1 h with rfl | h
    · omega
    · have := ih h; omega

theorem selectThroughEach_get (is : Option (List Nat)) (cs : List Condition) (es : List Yaml) (i : Nat) :
    open Classical in
    (selectThroughEach is cs es)[i]? = es[i]?.map fun e => if Fits cs e then selectThrough is cs e else [] := by
  induction es generalizing i with
  | nil => simp [selectThroughEach]
  | cons e t ih =>
    rw [selectThroughEach]
    cases i with
    | zero => rfl
    | succ i => simpa using ih i

theorem selectThroughEach_map (is : Option (List Nat)) (cs : List Condition) (es : List Yaml) :
    open Classical in
    selectThroughEach is cs es = es.map fun e => if Fits cs e then selectThrough is cs e else [] := by
  apply List.ext_getElem?
  intro i
  rw [selectThroughEach_get, List.getElem?_map]

theorem visitVal_fits {α} (cs : List Condition) (g : Yaml → List α × Yaml) (e : Yaml) :
    open Classical in visitVal cs g e = if Fits cs e then (g e).1 else [] := by
  unfold visitVal
  by_cases h : Fits cs e
  · rw [if_pos ((fitsConditions_iff e cs).2 h), if_pos h]
  · have h' : e.fitsConditions cs = false := by
      cases hb : e.fitsConditions cs with
      | false => rfl
      | true => exact absurd ((fitsConditions_iff e cs).1 hb) h
    rw [h', if_neg h]; rfl

theorem forAllIndexes_through {α} (cs : List Condition) (g : Yaml → List α × Yaml) (n : Nat) (y : Yaml)
    (hn : inlineDepth y < n) :
    (forAllIndexes cs g n y).1 = (selectThrough none cs y).flatMap fun e => (g e).1 := by
  induction n generalizing y with
  | zero => omega
  | succ n ih =>
    cases y with
    | array ds =>
      simp only [forAllIndexes, overArray_values, overInline_list, Additive.zero, List.nil_append, flatMap_visitVal,
        selectThrough, atIndexes]
    | inlineArray es =>
      simp only [inlineDepth] at hn
      simp only [forAllIndexes, overInline_list, Additive.zero, List.nil_append, selectThrough, selectThroughEach_map,
        ← List.flatMap_def, List.flatMap_assoc]
      simp only [List.flatMap_def]
      congr 1
      apply List.map_congr_left
      intro e he
      rw [visitVal_fits, ih e (by have := inlineDepthList_mem he; omega)]
      split <;> simp [List.flatMap_def]
    | _ => simp [forAllIndexes, selectThrough, Additive.zero]

theorem forIndexes_through {α} (is : List Nat) (cs : List Condition) (g : Yaml → List α × Yaml)
    (hg : ∀ e, (g e).2 = e) (n : Nat) (y : Yaml) (hn : inlineDepth y < n) :
    forIndexes is cs g n y = ((selectThrough (some is) cs y).flatMap fun e => (g e).1, y) := by
  have hself : ∀ ds : List ArrayData, setValues ds (elementValues ds) = ds := setValues_self
  have hro : ∀ n y, (forIndexes is cs g n y).2 = y := by
    intro n
    induction n with
    | zero => intro y; rfl
    | succ n ih =>
      intro y
      cases y with
      | inlineArray es => simp only [forIndexes]; rw [atInline_list _ _ ih]
      | array ds => simp only [forIndexes, atArray_values]; rw [atInline_list _ _ hg]; simp [hself]
      | _ => rfl
  induction n generalizing y with
  | zero => omega
  | succ n ih =>
    cases y with
    | array ds =>
      simp only [forIndexes, atArray_values]
      rw [atInline_list _ _ hg]
      simp only [Additive.zero, List.nil_append, flatMap_visitVal, hself, selectThrough, atIndexes]
    | inlineArray es =>
      simp only [inlineDepth] at hn
      simp only [forIndexes]
      rw [atInline_list _ _ (hro n)]
      simp only [Additive.zero, List.nil_append, selectThrough, selectThroughEach_get]
      congr 1
      have hm : ∀ e, e ∈ es → visitVal cs (forIndexes is cs g n) e =
          (open Classical in if Fits cs e then selectThrough (some is) cs e else []).flatMap fun e => (g e).1 := by
        intro e he
        rw [visitVal_fits, ih e (by have := inlineDepthList_mem he; omega)]
        split <;> simp
      have : ∀ js : List Nat, ((js.filterMap fun i => es[i]?).flatMap (visitVal cs (forIndexes is cs g n))) =
          ((js.filterMap fun i => open Classical in
            es[i]?.map fun e => if Fits cs e then selectThrough (some is) cs e else []).flatten).flatMap
              fun e => (g e).1 := by
        intro js
        induction js with
        | nil => rfl
        | cons j t iht =>
          cases hj : es[j]? with
          | none => simp only [List.filterMap_cons, hj, Option.map_none]; exact iht
          | some e =>
            simp only [List.filterMap_cons, hj, Option.map_some, List.flatMap_cons, List.flatten_cons,
              List.flatMap_append, iht]
            rw [hm e (List.mem_iff_getElem?.2 ⟨j, hj⟩)]
      exact this is
    | _ => simp [forIndexes, selectThrough, Additive.zero]

theorem forKey_lookup (k : Str) (cs : List Condition) (g : HashElement → List Yaml × HashElement) (y : Yaml) :
    open Classical in
    (forKey k cs g y).1 = if Fits cs y then ((y.keyValue k).map fun v => (g ⟨k, v⟩).1).getD [] else [] := by
  unfold forKey
  by_cases h : Fits cs y
  · rw [if_pos ((fitsConditions_iff y cs).2 h), if_pos h]
    cases y with
    | hash data =>
      simp only [Yaml.keyIndex, Yaml.keyValue]
      cases hi : data.findIdx? (HashData.hasKey k) with
      | none =>
        have := firstValue_none (findIdx_none _ _ hi)
        rw [firstValue_keyValue, Yaml.keyValue, Option.map_eq_none_iff] at this
        rw [this]; rfl
      | some i =>
        obtain ⟨pre, v, post, hfe, rfl⟩ := findIdx_spec _ _ _ hi
        simp only [hfe.get, hfe.keyValueIn]; rfl
    | _ => rfl
  · have h' : y.fitsConditions cs = false := by
      cases hb : y.fitsConditions cs with
      | false => rfl
      | true => exact absurd ((fitsConditions_iff y cs).1 hb) h
    rw [if_neg h, h']; rfl

/-- **C23.** What find_values returns, for every tree and every path: the lookup of the path in which an index step on a flow
sequence is repeated in its elements. -/
theorem C23_find_exact (path : YamlPath) (y : Yaml) : (y.findValues path).1 = lookupBy selectThrough path y := by
  have hfilter1 : ∀ (l : List Yaml), (l.flatMap fun e => [e]) = l := by
    intro l; induction l <;> simp_all
  unfold Yaml.findValues
  induction path using lastKey.induct generalizing y with
  | case1 cs =>
    simp only [Yaml.forHash, lookupBy]
    by_cases h : Fits cs y
    · rw [if_pos ((fitsConditions_iff y cs).2 h), if_pos h]
    · have h' : y.fitsConditions cs = false := by
        cases hb : y.fitsConditions cs with
        | false => rfl
        | true => exact absurd ((fitsConditions_iff y cs).1 hb) h
      rw [if_neg h, h']; rfl
  | case2 k cs =>
    simp only [Yaml.forHash, lookupBy, forKey_lookup, firstValue_keyValue]
    cases hk : y.keyValue k <;> simp
  | case3 k cs p ih =>
    simp only [Yaml.forHash, lookupBy, forKey_lookup, firstValue_keyValue]
    cases hk : y.keyValue k with
    | none => simp
    | some v => simp [ih v.value]
  | case4 cs =>
    simp only [Yaml.forHash, lookupBy]
    rw [forAllIndexes_through _ _ _ _ (by omega), hfilter1]
  | case5 cs p ih =>
    simp only [Yaml.forHash, lookupBy]
    rw [forAllIndexes_through _ _ _ _ (by omega)]
    simp only [ih]
  | case6 is cs =>
    simp only [Yaml.forHash, lookupBy]
    rw [forIndexes_through _ _ _ (fun _ => rfl) _ _ (by omega)]
    exact hfilter1 _
  | case7 is cs p ih =>
    simp only [Yaml.forHash, lookupBy]
    rw [forIndexes_through _ _ _ (forHash_readonly _ _ (fun _ => rfl) (fun _ => rfl) p) _ _ (by omega)]
    simp only [ih]

/-! ## Documents without block collections in flow collections -/

theorem selectThrough_flow {y : Yaml} (h : FlowOnly y) (is : Option (List Nat)) (cs : List Condition) :
    selectThrough is cs y = [] := by
  induction h with
  | inlineArray h ih =>
    rename_i es
    have hall : ∀ l ∈ selectThroughEach is cs es, l = [] := by
      intro l hl
      rw [selectThroughEach_map] at hl
      obtain ⟨e, he, rfl⟩ := List.mem_map.1 hl
      split
      · exact ih e he
      · rfl
    unfold selectThrough
    cases is with
    | none => simp only; rw [List.flatten_eq_nil_iff]; exact hall
    | some ns =>
      simp only; rw [List.flatten_eq_nil_iff]
      intro l hl
      obtain ⟨i, -, hi⟩ := List.mem_filterMap.1 hl
      exact hall l (List.mem_iff_getElem?.2 ⟨i, hi⟩)
  | _ => simp [selectThrough]

theorem selectThrough_block {y : Yaml} (h : BlockOutsideFlow y) (is : Option (List Nat)) (cs : List Condition) :
    selectThrough is cs y = selectBlock is cs y := by
  cases h with
  | flow h =>
    rw [selectThrough_flow h]
    cases h <;> rfl
  | hash h => simp [selectThrough, selectBlock]
  | array h => simp [selectThrough, selectBlock]

theorem mem_selectBlock {is : Option (List Nat)} {cs : List Condition} {y e : Yaml} (h : e ∈ selectBlock is cs y) :
    ∃ ds, y = .array ds ∧ e ∈ elementValues ds := by
  cases y with
  | array ds =>
    refine ⟨ds, rfl, ?_⟩
    have := (List.mem_filter.1 h).1
    cases is with
    | none => exact this
    | some ns =>
      obtain ⟨i, -, hi⟩ := List.mem_filterMap.1 this
      exact List.mem_iff_getElem?.2 ⟨i, hi⟩
  | _ => cases h

theorem blockOutsideFlow_elementValues {ds : List ArrayData} {e : Yaml} (h : BlockOutsideFlow (.array ds))
    (he : e ∈ elementValues ds) : BlockOutsideFlow e := by
  cases h with
  | flow h => cases h
  | array h =>
    obtain ⟨d, hd, hde⟩ := List.mem_filterMap.1 he
    match d, hd, hde with
    | .element ⟨a, v⟩, hd, hde => cases hde; exact h _ _ hd

theorem blockOutsideFlow_firstValue {k : Str} {y v : Yaml} (h : BlockOutsideFlow y) (hv : firstValue k y = some v) :
    BlockOutsideFlow v := by
  cases h with
  | flow h => cases h <;> cases hv
  | array h => cases hv
  | hash h =>
    obtain ⟨d, hd, hde⟩ := List.exists_of_findSome?_eq_some hv
    match d, hd, hde with
    | .element ⟨k', ⟨a, w⟩⟩, hd, hde =>
      by_cases hk : k' = k
      · simp only [hk, if_true, Option.some.injEq] at hde
        subst hde
        exact h _ _ _ hd
      · simp [hk] at hde

/-- **C23.** In a tree whose flow collections contain no block collections (every parsed document is such a tree), find_values
is the lookup of the path in which index steps address the elements of block sequences only. -/
theorem C23_find_is_lookup (path : YamlPath) (y : Yaml) (h : BlockOutsideFlow y) :
    (y.findValues path).1 = lookupBy selectBlock path y := by
  rw [C23_find_exact]
  have hflat : ∀ (l : List Yaml) (f g : Yaml → List Yaml), (∀ e ∈ l, f e = g e) → l.flatMap f = l.flatMap g := by
    intro l f g h
    rw [List.flatMap_def, List.flatMap_def, List.map_congr_left h]
  induction path using lastKey.induct generalizing y with
  | case1 cs => rfl
  | case2 k cs => rfl
  | case3 k cs p ih =>
    simp only [lookupBy]
    split
    · apply hflat
      intro e he
      exact ih e (blockOutsideFlow_firstValue (k := k) h (by simpa using he))
    · rfl
  | case4 cs => exact selectThrough_block h _ _
  | case5 cs p ih =>
    simp only [lookupBy, selectThrough_block h]
    apply hflat
    intro e he
    obtain ⟨ds, rfl, he'⟩ := mem_selectBlock he
    exact ih e (blockOutsideFlow_elementValues h he')
  | case6 is cs => exact selectThrough_block h _ _
  | case7 is cs p ih =>
    simp only [lookupBy, selectThrough_block h]
    apply hflat
    intro e he
    obtain ⟨ds, rfl, he'⟩ := mem_selectBlock he
    exact ih e (blockOutsideFlow_elementValues h he')

theorem lookupBy_any (path : YamlPath) (y : Yaml) : lookupBy selectAny path y = lookup path y := by
  induction path using lastKey.induct generalizing y with
  | case1 cs => rfl
  | case2 k cs => rfl
  | case3 k cs p ih => simp only [lookupBy, lookup, funext ih]
  | case4 cs => rfl
  | case5 cs p ih => simp only [lookupBy, lookup, funext ih]; rfl
  | case6 is cs => rfl
  | case7 is cs p ih => simp only [lookupBy, lookup, funext ih]; rfl

theorem parsedFlow_flowOnly {T : CharTables} {y : Yaml} (h : ParsedFlow T y) : FlowOnly y := by
  induction h with
  | inlineHash _ _ ih => exact .inlineHash ih
  | inlineArray _ ih => exact .inlineArray ih
  | doubleQuoted _ => exact .doubleQuotedString _
  | singleQuoted _ => exact .singleQuotedString _
  | plain _ => exact .unquotedString _
  | anchor _ => exact .anchor _

/-- In a parsed value, flow collections contain only flow collections. -/
theorem parsed_blockOutsideFlow {T : CharTables} {y : Yaml} (h : ParsedValue T y) : BlockOutsideFlow y := by
  induction h with
  | flowHash h => exact .flow (parsedFlow_flowOnly h)
  | flowArray h => exact .flow (parsedFlow_flowOnly h)
  | doubleQuoted _ => exact .flow (.doubleQuotedString _)
  | singleQuoted _ => exact .flow (.singleQuotedString _)
  | plain _ => exact .flow (.unquotedString _)
  | anchor _ => exact .flow (.anchor _)
  | literal _ _ => exact .flow (.literalString _ _)
  | folded _ _ => exact .flow (.foldedString _ _)
  | hash _ _ _ _ _ _ ih => exact .hash fun k a v hm => ih _ hm
  | array _ _ _ _ _ ih => exact .array fun a v hm => ih _ hm

theorem findValues_items (d : Document) (path : YamlPath) :
    (d.findValues path).1 = (yamlItems d).flatMap fun y => (y.findValues path).1 := by
  unfold Document.findValues Document.overItems
  have key : ∀ (is : List DocumentData) (c : List Yaml),
      (Document.overItems.go (Yaml.findValues path) c is).1 =
        c ++ (is.filterMap fun | .yaml y => some y | .comment _ => none).flatMap fun y => (y.findValues path).1 := by
    intro is
    induction is with
    | nil => intro c; simp [Document.overItems.go]
    | cons i t ih =>
      intro c
      cases i with
      | comment s =>
        simp only [Document.overItems.go, ih, Additive.add, Additive.zero, List.append_nil]
        rfl
      | yaml y =>
        simp only [Document.overItems.go, ih, Additive.add, List.append_assoc]
        rfl
  exact key d.items []

/-- The trees of a parsed document contain no block collection in a flow collection. -/
theorem parsed_items {T : CharTables} {input : Str} {d : Document} (h : parseYamlFile T input = .ok d) :
    ∀ y ∈ yamlItems d, BlockOutsideFlow y := by
  intro y hy
  obtain ⟨pre, post, root, hi, -, -, hr⟩ := (C39_parsed_well_formed h).items
  unfold yamlItems at hy
  rw [hi] at hy
  obtain ⟨x, hx, hxy⟩ := List.mem_filterMap.1 hy
  simp only [List.append_assoc, List.mem_append, List.mem_map, List.mem_singleton] at hx
  rcases hx with ⟨c, -, rfl⟩ | rfl | ⟨c, -, rfl⟩
  · cases hxy
  · cases hxy; exact parsed_blockOutsideFlow hr
  · cases hxy

/-- **C23.** What find_values returns for a parsed document. -/
theorem C23_find_parsed (T : CharTables) (input : Str) (d : Document) (path : YamlPath)
    (h : parseYamlFile T input = .ok d) :
    (d.findValues path).1 = (yamlItems d).flatMap (lookupBy selectBlock path) := by
  rw [findValues_items, List.flatMap_def, List.flatMap_def]
  congr 1
  apply List.map_congr_left
  intro y hy
  exact C23_find_is_lookup path y (parsed_items h y hy)

/-- C23 is not vacuous: a document with a flow sequence and a block sequence, and a path with an index in each. -/
def mixedTree : Yaml :=
  .hash [.element ⟨c!"f", ⟨none, .inlineArray [.unquotedString c!"x", .unquotedString c!"y"]⟩⟩,
    .element ⟨c!"b", ⟨none, .array [.element ⟨none, .unquotedString c!"x"⟩, .element ⟨none, .inlineArray []⟩]⟩⟩]

example : BlockOutsideFlow mixedTree := by
  refine .hash fun k a v h => ?_
  simp only [List.mem_cons, HashData.element.injEq, HashElement.mk.injEq, AliasedYaml.mk.injEq, List.not_mem_nil,
    or_false] at h
  rcases h with ⟨-, -, rfl⟩ | ⟨-, -, rfl⟩
  · refine .flow (.inlineArray fun v h => ?_)
    simp only [List.mem_cons, List.not_mem_nil, or_false] at h
    rcases h with rfl | rfl <;> exact .unquotedString _
  · refine .array fun a v h => ?_
    simp only [List.mem_cons, ArrayData.element.injEq, AliasedYaml.mk.injEq, List.not_mem_nil, or_false] at h
    rcases h with ⟨-, rfl⟩ | ⟨-, rfl⟩
    · exact .flow (.unquotedString _)
    · exact .flow (.inlineArray fun v h => by cases h)
example : (mixedTree.findValues (.key c!"b" [] (some (.indexes [1, 0, 1] [] none)))).1 =
    [.inlineArray [], .unquotedString c!"x", .inlineArray []] := by kernel_rfl
example : (mixedTree.findValues (.key c!"f" [] (some (.indexes [1, 0, 1] [] none)))).1 = [] := by kernel_rfl

/-! ## Renaming and wrapping off block sequences -/

theorem overInline_const {cs : List Condition} {g : Yaml → Nat × Yaml} {es : List Yaml} (hg : ∀ e ∈ es, g e = (0, e)) :
    overInline cs g 0 es = (0, es) := by
  rw [overInline_congr cs g (fun e => (0, e)) 0 es hg]
  induction es with
  | nil => rfl
  | cons e t ih =>
    rw [overInline]
    have hz : Additive.add (0 : Nat) (0 : Nat) = 0 := rfl
    simp only [hz, ih fun e he => hg e (List.mem_cons_of_mem _ he)]
    split <;> rfl

theorem atInline_const {cs : List Condition} {g : Yaml → Nat × Yaml} {is : List Nat} {es : List Yaml}
    (hg : ∀ e ∈ es, g e = (0, e)) : atInline cs g is 0 es = (0, es) := by
  induction is with
  | nil => rfl
  | cons i t ih =>
    rw [atInline]
    cases hi : es[i]? with
    | none => exact ih
    | some e =>
      have hz : Additive.add (0 : Nat) (0 : Nat) = 0 := rfl
      simp only [hg e (List.mem_iff_getElem?.2 ⟨i, hi⟩), hz]
      have hs : es.set i e = es := by
        obtain ⟨a, b, rfl, rfl⟩ := split_at hi
        rw [set_append_length]
      rw [hs]
      split <;> exact ih

theorem editHash_flow (f : List HashData → Str → Option Nat → Nat × List HashData) (path : YamlPath) {y : Yaml}
    (h : FlowOnly y) : Yaml.editHash f path y = (0, y) := by
  induction path using lastKey.induct generalizing y with
  | case1 cs => rfl
  | case2 k cs => exact editHash_key_other _ _ _ _ _ (by intro ds hd; subst hd; cases h)
  | case3 k cs p ih => exact editHash_key_other _ _ _ _ _ (by intro ds hd; subst hd; cases h)
  | case4 cs => cases h <;> rfl
  | case5 cs p ih =>
    cases h with
    | inlineArray h =>
      simp only [Yaml.editHash]
      rw [overInline_const fun e he => ih (h e he)]
    | _ => rfl
  | case6 is cs => cases h <;> rfl
  | case7 is cs p ih =>
    cases h with
    | inlineArray h =>
      simp only [Yaml.editHash]
      rw [atInline_const fun e he => ih (h e he)]
    | _ => rfl

theorem forHash_flow (f : HashElement → Nat × HashElement) (path : YamlPath) {y : Yaml}
    (h : FlowOnly y) : Yaml.forHash f (fun h => (0, h)) path y = (0, y) := by
  have hkey : ∀ k cs g, forKey k cs g y = ((0 : Nat), y) := by
    intro k cs g
    unfold forKey
    split
    · cases h <;> rfl
    · rfl
  have hall : ∀ cs (g : Yaml → Nat × Yaml) n (y : Yaml), FlowOnly y → forAllIndexes cs g n y = (0, y) := by
    intro cs g n
    induction n with
    | zero => intro y _; rfl
    | succ n ih =>
      intro y h
      cases h with
      | inlineArray h =>
        show ((overInline cs (forAllIndexes cs g n) 0 _).1, Yaml.inlineArray (overInline cs (forAllIndexes cs g n) 0 _).2) = _
        rw [overInline_const fun e he => ih e (h e he)]
      | _ => rfl
  have hidx : ∀ is cs (g : Yaml → Nat × Yaml) n (y : Yaml), FlowOnly y → forIndexes is cs g n y = (0, y) := by
    intro is cs g n
    induction n with
    | zero => intro y _; rfl
    | succ n ih =>
      intro y h
      cases h with
      | inlineArray h =>
        show ((atInline cs (forIndexes is cs g n) is 0 _).1, Yaml.inlineArray (atInline cs (forIndexes is cs g n) is 0 _).2) = _
        rw [atInline_const fun e he => ih e (h e he)]
      | _ => rfl
  cases path with
  | root cs => simp only [Yaml.forHash]; split <;> rfl
  | key k cs rest => cases rest <;> exact hkey _ _ _
  | allIndexes cs rest => cases rest <;> exact hall _ _ _ _ h
  | indexes is cs rest => cases rest <;> exact hidx _ _ _ _ _ h

theorem blockOutsideFlow_setValues {ds : List ArrayData} (es : List Yaml) (hl : es.length = (elementValues ds).length)
    (h : ∀ e ∈ es, BlockOutsideFlow e) : BlockOutsideFlow (.array (setValues ds es)) := by
  refine .array fun a v hv => ?_
  have : v ∈ elementValues (setValues ds es) := List.mem_filterMap.2 ⟨_, hv, rfl⟩
  rw [elementValues_setValues _ _ hl] at this
  exact h v this

/-- If a closure keeps hashes free of block collections in flow collections, so does an edit. -/
theorem blockOutsideFlow_editHash (f : List HashData → Str → Option Nat → Nat × List HashData)
    (hf : ∀ data k, BlockOutsideFlow (.hash data) →
      BlockOutsideFlow (.hash (f data k (data.findIdx? (HashData.hasKey k))).2))
    (path : YamlPath) (y : Yaml) (hy : BlockOutsideFlow y) : BlockOutsideFlow (y.editHash f path).2 := by
  cases hy with
  | flow h => rw [editHash_flow _ _ h]; exact .flow h
  | hash h =>
    rename_i data
    have hy : BlockOutsideFlow (.hash data) := .hash h
    clear h
    cases path with
    | key k cs rest =>
      cases rest with
      | none => 
        simp only [Yaml.editHash]
        split
        · exact hf _ _ hy
        · exact hy
      | some p =>
        simp only [Yaml.editHash, Yaml.keyIndex]
        split
        · cases hi : data.findIdx? (HashData.hasKey k) with
          | none => exact hy
          | some i =>
            obtain ⟨pre, ⟨a, w⟩, post, hfe, rfl⟩ := findIdx_spec _ _ _ hi
            simp only [hfe.get]
            rw [hfe.1] at hy ⊢
            rw [set_append_length]
            cases hy with
            | flow h => cases h
            | hash h =>
              refine .hash fun k' a' v hv => ?_
              simp only [List.mem_append, List.mem_cons, HashData.element.injEq, HashElement.mk.injEq,
                AliasedYaml.mk.injEq] at hv
              rcases hv with hv | ⟨-, -, rfl⟩ | hv
              · exact h _ _ _ (by simp only [List.mem_append]; exact .inl hv)
              · exact blockOutsideFlow_editHash f hf p w (h k a w (by simp))
              · exact h _ _ _ (by simp only [List.mem_append, List.mem_cons]; exact .inr (.inr hv))
        · exact hy
    | root cs => exact hy
    | allIndexes cs rest => cases rest <;> exact hy
    | indexes is cs rest => cases rest <;> exact hy
  | array h =>
    rename_i ds
    have hy : BlockOutsideFlow (.array ds) := .array h
    clear h
    cases path with
    | key k cs rest => rw [editHash_key_other _ _ _ _ _ (by simp)]; exact hy
    | root cs => exact hy
    | allIndexes cs rest =>
      cases rest with
      | none => exact hy
      | some p =>
        simp only [Yaml.editHash, overArray_values]
        refine blockOutsideFlow_setValues _ (by simp [overInline_snd]) ?_
        rw [overInline_snd]
        intro e he
        obtain ⟨x, hx, rfl⟩ := List.mem_map.1 he
        have hx' := blockOutsideFlow_elementValues hy hx
        unfold visitTree
        split
        · exact blockOutsideFlow_editHash f hf p x hx'
        · exact hx'
    | indexes is cs rest =>
      cases rest with
      | none => exact hy
      | some p =>
        simp only [Yaml.editHash, atArray_values]
        refine blockOutsideFlow_setValues _ (by simp [atInline_length]) ?_
        rw [atInline_snd]
        intro e he
        refine foldl_modify_invariant (visitTree cs (Yaml.editHash f p)) BlockOutsideFlow ?_ is (elementValues ds)
          (fun x hx => blockOutsideFlow_elementValues hy hx) e he
        intro x hx'
        unfold visitTree
        split
        · exact blockOutsideFlow_editHash f hf p x hx'
        · exact hx'

theorem forHash_eq_editHash_block (f : HashElement → Nat × HashElement)
    (hf : ∀ e : HashElement, BlockOutsideFlow e.value.value → BlockOutsideFlow (f e).2.value.value)
    (path : YamlPath) (hk : (lastKey path).isSome) (y : Yaml) (hy : BlockOutsideFlow y) :
    Yaml.forHash f (fun h => (0, h)) path y = Yaml.editHash (elementClosure f) path y := by
  have hclosure : ∀ data k, BlockOutsideFlow (.hash data) →
      BlockOutsideFlow (.hash (elementClosure f data k (data.findIdx? (HashData.hasKey k))).2) := by
    intro data k hd
    unfold elementClosure
    cases hi : data.findIdx? (HashData.hasKey k) with
    | none => exact hd
    | some i =>
      obtain ⟨pre, ⟨a, w⟩, post, hfe, rfl⟩ := findIdx_spec _ _ _ hi
      simp only [hfe.get]
      rw [hfe.1] at hd ⊢
      rw [set_append_length]
      cases hd with
      | flow h => cases h
      | hash h =>
        refine .hash fun k' a' v hv => ?_
        simp only [List.mem_append, List.mem_cons, HashData.element.injEq] at hv
        rcases hv with hv | hv | hv
        · exact h _ _ _ (by simp only [List.mem_append]; exact .inl hv)
        · have := hf ⟨k, ⟨a, w⟩⟩ (h k a w (by simp))
          rw [← hv] at this
          exact this
        · exact h _ _ _ (by simp only [List.mem_append, List.mem_cons]; exact .inr (.inr hv))
  induction path using lastKey.induct generalizing y with
  | case1 cs => cases hk
  | case2 k cs => exact forHash_eq_editHash f _ hk y trivial
  | case3 k cs p ih =>
    simp only [lastKey] at hk
    cases y with
    | hash data =>
      simp only [Yaml.forHash, forKey, Yaml.editHash, Yaml.keyIndex]
      split
      · cases hi : data.findIdx? (HashData.hasKey k) with
        | none => rfl
        | some i =>
          obtain ⟨pre, ⟨a, w⟩, post, hfe, rfl⟩ := findIdx_spec _ _ _ hi
          simp only [hfe.get]
          rw [ih hk w (blockOutsideFlow_firstValue hy hfe.firstValue)]
      · rfl
    | _ =>
      rw [editHash_key_other _ _ _ _ _ (by simp)]
      simp only [Yaml.forHash, forKey, Yaml.keyIndex]
      split <;> rfl
  | case4 cs => cases hk
  | case5 cs p ih =>
    simp only [lastKey] at hk
    cases hy with
    | flow h => rw [editHash_flow _ _ h, forHash_flow _ _ h]
    | array h =>
      have hy := BlockOutsideFlow.array h
      simp only [Yaml.forHash, forAllIndexes, Yaml.editHash, overArray_values]
      rw [overInline_congr _ _ _ _ (elementValues _) fun e he => ih hk e (blockOutsideFlow_elementValues hy he)]
      rfl
    | hash h => rfl
  | case6 is cs => cases hk
  | case7 is cs p ih =>
    simp only [lastKey] at hk
    cases hy with
    | flow h => rw [editHash_flow _ _ h, forHash_flow _ _ h]
    | array h =>
      have hy := BlockOutsideFlow.array h
      simp only [Yaml.forHash, forIndexes, Yaml.editHash, atArray_values]
      rw [atInline_congr _ _ _ _ _ (elementValues _) BlockOutsideFlow
        (fun e he => blockOutsideFlow_editHash _ hclosure p e he)
        (fun e he => blockOutsideFlow_elementValues hy he) (ih hk)]
      rfl
    | hash h => rfl

/-- **C24, C21.** In a document whose flow collections contain no block collections (every parsed document), rename_field renames
the first entry with the key in exactly the addressed hashes that have the key. -/
theorem C24_rename_where_block (d : Document) (path : YamlPath) (k new : Str) (hk : lastKey path = some k)
    (hr : NoRepeats path) (hi : ∀ y ∈ yamlItems d, BlockOutsideFlow y) :
    DocEditsAt (Renames k new) (AddressedWhere path k fun ds => k ∈ keysOf ds)
      (d.renameField path new).1 d (d.renameField path new).2 :=
  overItems_located d fun y hy => by
    unfold Yaml.renameField
    rw [forHash_eq_editHash_block _ (fun _ h => h) path (by simp [hk]) y (hi y hy)]
    exact editHash_located (fun k => Renames k new) (fun k ds => k ∈ keysOf ds) _
      (fun data k => elementClosure_app _ (fun _ => rfl) data k) path k hk hr y

/-- **C24, C22.** The same for to_object. -/
theorem C24_to_object_where_block (d : Document) (path : YamlPath) (k obj : Str) (hk : lastKey path = some k)
    (hr : NoRepeats path) (hi : ∀ y ∈ yamlItems d, BlockOutsideFlow y) :
    DocEditsAt (Wraps k obj) (AddressedWhere path k fun ds => k ∈ keysOf ds)
      (d.toObject path obj).1 d (d.toObject path obj).2 :=
  overItems_located d fun y hy => by
    unfold Yaml.toObject
    rw [forHash_eq_editHash_block _ ?_ path (by simp [hk]) y (hi y hy)]
    exact editHash_located (fun k => Wraps k obj) (fun k ds => k ∈ keysOf ds) _
      (fun data k => elementClosure_app _ (fun _ => rfl) data k) path k hk hr y
    intro e he
    refine .hash fun k a v hv => ?_
    obtain ⟨k', ⟨a', v'⟩⟩ := e
    simp only [List.mem_singleton, HashData.element.injEq, HashElement.mk.injEq, AliasedYaml.mk.injEq] at hv
    obtain ⟨-, -, rfl⟩ := hv
    exact he

/-! ## C25: flow sequences -/

/-- **C25.** Index steps find nothing in flow sequences: if a flow value contains no block collections, find_values with a
path that starts with an index step returns nothing, and rename_field, to_object, insert_into_hash and remove_from_hash
change nothing, whatever the path. -/
theorem C25_flow_sequences (y : Yaml) (h : FlowOnly y) (path : YamlPath) :
    ((∃ cs rest, path = .allIndexes cs rest) ∨ (∃ is cs rest, path = .indexes is cs rest) →
      (y.findValues path).1 = []) ∧
    (∀ new, y.renameField path new = (0, y)) ∧ (∀ obj, y.toObject path obj = (0, y)) ∧
    (∀ v o, y.insertIntoHash path v o = (0, y)) ∧ y.removeFromHash path = (0, y) := by
  refine ⟨?_, fun _ => forHash_flow _ _ h, fun _ => forHash_flow _ _ h, fun _ _ => editHash_flow _ _ h,
    editHash_flow _ _ h⟩
  rintro (⟨cs, rest, rfl⟩ | ⟨is, cs, rest, rfl⟩)
  · rw [C23_find_exact]
    cases rest <;> simp [lookupBy, selectThrough_flow h]
  · rw [C23_find_exact]
    cases rest <;> simp [lookupBy, selectThrough_flow h]

/-- **C25.** find_values gives the same for a sequence in flow style as for the same sequence in block style exactly if it
gives nothing for the block style. -/
theorem C25_styles_differ (ds : List ArrayData) (hf : ∀ e ∈ elementValues ds, FlowOnly e) (path : YamlPath)
    (hp : (∃ cs rest, path = .allIndexes cs rest) ∨ (∃ is cs rest, path = .indexes is cs rest)) :
    ((Yaml.inlineArray (elementValues ds)).findValues path).1 = ((Yaml.array ds).findValues path).1 ↔
      lookupBy selectBlock path (.array ds) = [] := by
  have h1 := (C25_flow_sequences _ (.inlineArray fun v hv => hf v hv) path).1 hp
  have h2 := C23_find_is_lookup path _ (.array fun a v hv => .flow (hf v (List.mem_filterMap.2 ⟨_, hv, rfl⟩)))
  rw [h1, h2]
  exact ⟨fun h => h.symm, fun h => h.symm⟩

/-- `[a, b]` against `- a`, `- b` with `[1]`: the two styles differ. -/
example : ((Yaml.inlineArray [.unquotedString c!"a", .unquotedString c!"b"]).findValues (.indexes [1] [] none)).1 = [] ∧
    ((Yaml.array [.element ⟨none, .unquotedString c!"a"⟩, .element ⟨none, .unquotedString c!"b"⟩]).findValues
      (.indexes [1] [] none)).1 = [.unquotedString c!"b"] := ⟨by kernel_rfl, by kernel_rfl⟩

end YamlSubset
