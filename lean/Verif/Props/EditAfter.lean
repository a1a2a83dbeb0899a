import Verif.Props.EditFind

/-! # What a lookup finds after an edit (C18, C20, C21, C22) -/

namespace YamlSubset

open Spec

theorem fits_nil (y : Yaml) : Fits [] y := by intro c hc; cases hc

theorem fitsConditions_nil (y : Yaml) : y.fitsConditions [] = true := rfl

theorem filter_fits_nil (l : List Yaml) : open Classical in (l.filter fun e => Fits [] e) = l := by
  apply List.filter_eq_self.2
  intro a _
  simp [fits_nil]

theorem flatMap_replicate_sum {es : List Yaml} {L : Yaml → List Yaml} {N : Yaml → Nat} {v : Yaml}
    (h : ∀ e ∈ es, L e = List.replicate (N e) v) : es.flatMap L = List.replicate (es.map N).sum v := by
  induction es with
  | nil => rfl
  | cons e t ih =>
    rw [List.flatMap_cons, h e (by simp), ih fun e he => h e (by simp [he]), List.map_cons, List.sum_cons]
    exact List.replicate_append_replicate

theorem filterMap_at {es es' : List Yaml} {G : Yaml → Yaml} {is : List Nat}
    (h : ∀ i ∈ is, es'[i]? = es[i]?.map G) :
    (is.filterMap fun i => es'[i]?) = (is.filterMap fun i => es[i]?).map G := by
  induction is with
  | nil => rfl
  | cons i t ih =>
    rw [List.filterMap_cons, List.filterMap_cons, h i (by simp), ih fun j hj => h j (by simp [hj])]
    cases es[i]? <;> rfl

theorem mem_filterMap_at {es : List Yaml} {is : List Nat} {e : Yaml} (h : e ∈ is.filterMap fun i => es[i]?) :
    e ∈ es := by
  obtain ⟨i, -, hi⟩ := List.mem_filterMap.1 h
  exact List.mem_iff_getElem?.2 ⟨i, hi⟩

/-- The lookup of a path that ends in a key, after an insert with overwrite. -/
theorem lookup_insert (path : YamlPath) (h : AliasedYaml) (hc : NoConditions path) (hr : NoRepeats path)
    (hk : (lastKey path).isSome) (y : Yaml) (hy : AvoidsInline path y) :
    lookup path (y.insertIntoHash path h true).2 = List.replicate (y.insertIntoHash path h true).1 h.value := by
  unfold Yaml.insertIntoHash
  induction path using lastKey.induct generalizing y with
  | case1 cs => cases hk
  | case2 k cs =>
    simp only [NoConditions] at hc; subst hc
    cases y with
    | hash data =>
      simp only [Yaml.editHash, fitsConditions_nil, if_true, Yaml.keyIndex, lookup, fits_nil]
      rcases insertClosure_spec h true data k with ⟨h0, -⟩ | ⟨h1, h2⟩
      · simp only [insertClosure] at h0
        cases hi : data.findIdx? (HashData.hasKey k) <;> rw [hi] at h0 <;> cases h0
      · rw [h1]
        rcases h2 with ⟨hn, h2⟩ | ⟨-, pre, v, post, hfe, h2⟩
        · rw [h2, (firstEntry_append hn h).firstValue]; rfl
        · have hfe' : FirstEntry k (pre ++ .element ⟨k, h⟩ :: post) pre h post := ⟨rfl, hfe.2⟩
          rw [h2, hfe'.firstValue]; rfl
    | _ => simp [editHash_key_other, lookup, firstValue]
  | case3 k cs p ih =>
    simp only [NoConditions] at hc; obtain ⟨rfl, hc⟩ := hc
    simp only [NoRepeats] at hr
    simp only [lastKey] at hk
    cases y with
    | hash data =>
      simp only [Yaml.editHash, fitsConditions_nil, if_true, Yaml.keyIndex, lookup, fits_nil]
      cases hi : data.findIdx? (HashData.hasKey k) with
      | none =>
        rw [firstValue_none (findIdx_none _ _ hi)]
        rfl
      | some i =>
        obtain ⟨pre, ⟨a, w⟩, post, hfe, rfl⟩ := findIdx_spec _ _ _ hi
        simp only [hfe.get]
        have hw := hy _ hfe.firstValue
        rw [hfe.1, set_append_length]
        have hfe' : FirstEntry k (pre ++ .element ⟨k, ⟨a, (Yaml.editHash (insertClosure h true) p w).2⟩⟩ :: post) pre
            ⟨a, (Yaml.editHash (insertClosure h true) p w).2⟩ post := ⟨rfl, hfe.2⟩
        rw [hfe'.firstValue]
        simp [ih hc hr hk w hw]
    | _ => simp [editHash_key_other, lookup, firstValue]
  | case4 cs => cases hk
  | case5 cs p ih =>
    simp only [NoConditions] at hc; obtain ⟨rfl, hc⟩ := hc
    simp only [NoRepeats] at hr
    simp only [lastKey] at hk
    have ih := ih hc hr hk
    cases y with
    | inlineArray es => exact absurd rfl (hy.1 es)
    | array ds =>
      simp only [Yaml.editHash, overArray_values, lookup, elements, filter_fits_nil]
      rw [elementValues_setValues _ _ (by simp [overInline_snd]), overInline_snd, overInline_nat, Nat.zero_add,
        List.flatMap_map]
      apply flatMap_replicate_sum
      intro e he
      simp only [visitTree, visitVal, fitsConditions_nil, if_true]
      exact ih e (hy.2 e he)
    | _ => simp [Yaml.editHash, lookup, elements]
  | case6 is cs => cases hk
  | case7 is cs p ih =>
    simp only [NoConditions] at hc; obtain ⟨rfl, hc⟩ := hc
    simp only [NoRepeats] at hr
    simp only [lastKey] at hk
    have ih := ih hc hr.2 hk
    cases y with
    | inlineArray es => exact absurd rfl (hy.1 es)
    | array ds =>
      simp only [Yaml.editHash, atArray_values, lookup, elements, filter_fits_nil]
      rw [elementValues_setValues _ _ (atInline_length _ _ _ _ _), atInline_nat _ _ _ hr.1, Nat.zero_add, atInline_snd,
        filterMap_at (fun i hi => foldl_modify_nodup _ is hr.1 _ i hi), List.flatMap_map]
      apply flatMap_replicate_sum
      intro e he
      simp only [visitTree, visitVal, fitsConditions_nil, if_true]
      exact ih e (hy.2 e (mem_filterMap_at he))
    | _ => simp [Yaml.editHash, lookup, elements]

/-- An edit does not put inline arrays in the way of its path. -/
theorem avoidsInline_editHash (f : List HashData → Str → Option Nat → Nat × List HashData) (path : YamlPath)
    (y : Yaml) (hy : AvoidsInline path y) : AvoidsInline path (y.editHash f path).2 := by
  induction path using lastKey.induct generalizing y with
  | case1 cs => exact hy
  | case2 k cs => trivial
  | case3 k cs p ih =>
    cases y with
    | hash data =>
      simp only [Yaml.editHash]
      split
      · simp only [Yaml.keyIndex]
        cases hi : data.findIdx? (HashData.hasKey k) with
        | none => exact hy
        | some i =>
          obtain ⟨pre, ⟨a, w⟩, post, hfe, rfl⟩ := findIdx_spec _ _ _ hi
          simp only [hfe.get]
          have hw := hy _ hfe.firstValue
          rw [hfe.1, set_append_length]
          have hfe' : FirstEntry k (pre ++ .element ⟨k, ⟨a, (Yaml.editHash f p w).2⟩⟩ :: post) pre
              ⟨a, (Yaml.editHash f p w).2⟩ post := ⟨rfl, hfe.2⟩
          intro v hv
          rw [hfe'.firstValue] at hv
          cases hv
          exact ih w hw
      · exact hy
    | _ => rw [editHash_key_other _ _ _ _ _ (by simp)]; exact hy
  | case4 cs => cases y <;> exact hy
  | case5 cs p ih =>
    cases y with
    | inlineArray es => exact absurd rfl (hy.1 es)
    | array ds =>
      simp only [Yaml.editHash, overArray_values]
      refine ⟨by simp, ?_⟩
      intro e he
      simp only [elements] at he
      rw [elementValues_setValues _ _ (by simp [overInline_snd]), overInline_snd] at he
      obtain ⟨x, hx, rfl⟩ := List.mem_map.1 he
      unfold visitTree
      split
      · exact ih x (hy.2 x hx)
      · exact hy.2 x hx
    | _ => exact hy
  | case6 is cs => cases y <;> exact hy
  | case7 is cs p ih =>
    cases y with
    | inlineArray es => exact absurd rfl (hy.1 es)
    | array ds =>
      simp only [Yaml.editHash, atArray_values]
      refine ⟨by simp, ?_⟩
      intro e he
      simp only [elements] at he
      rw [elementValues_setValues _ _ (atInline_length _ _ _ _ _), atInline_snd] at he
      refine foldl_modify_invariant _ (AvoidsInline p) (fun e he => ?_) is _ hy.2 e he
      unfold visitTree
      split
      · exact ih e he
      · exact he
    | _ => exact hy

/-! ### documents -/

/-- The YAML items of a document. -/
def yamlItems (d : Document) : List Yaml :=
  d.items.filterMap fun
    | .yaml y => some y
    | .comment _ => none

theorem overItems_items {A : Type} [Additive A] (g : Yaml → A × Yaml) (d : Document) :
    yamlItems (d.overItems g).2 = (yamlItems d).map fun y => (g y).2 := by
  have key : ∀ (is : List DocumentData) (c : A), (Document.overItems.go g c is).2 = is.map fun
      | .yaml y => .yaml (g y).2
      | .comment s => .comment s := by
    intro is
    induction is with
    | nil => intro c; rfl
    | cons i t ih => intro c; cases i <;> simp [Document.overItems.go, ih]
  unfold yamlItems
  simp only [Document.overItems, key]
  induction d.items with
  | nil => rfl
  | cons i t ih => cases i <;> simp_all [List.filterMap_cons]

theorem overItems_nat (g : Yaml → Nat × Yaml) (d : Document) :
    (d.overItems g).1 = ((yamlItems d).map fun y => (g y).1).sum := by
  have key : ∀ (is : List DocumentData) (c : Nat), (Document.overItems.go g c is).1 =
      c + ((is.filterMap fun | .yaml y => some y | .comment _ => none).map fun y => (g y).1).sum := by
    intro is
    induction is with
    | nil => intro c; rfl
    | cons i t ih =>
      intro c
      cases i with
      | comment s => simp only [Document.overItems.go, ih]; simp [Additive.add, Additive.zero, List.filterMap_cons]
      | yaml y => simp only [Document.overItems.go, ih]; simp [Additive.add, List.filterMap_cons]; omega
  have := key d.items 0
  rw [Nat.zero_add] at this
  exact this

theorem overItems_list (g : Yaml → List Yaml × Yaml) (d : Document) :
    (d.overItems g).1 = (yamlItems d).flatMap fun y => (g y).1 := by
  have key : ∀ (is : List DocumentData) (c : List Yaml), (Document.overItems.go g c is).1 =
      c ++ (is.filterMap fun | .yaml y => some y | .comment _ => none).flatMap fun y => (g y).1 := by
    intro is
    induction is with
    | nil => intro c; simp [Document.overItems.go]
    | cons i t ih =>
      intro c
      cases i with
      | comment s => simp only [Document.overItems.go, ih]; simp [Additive.add, Additive.zero, List.filterMap_cons]
      | yaml y => simp only [Document.overItems.go, ih]; simp [Additive.add, List.filterMap_cons]
  have := key d.items []
  rw [List.nil_append] at this
  exact this

/-! ## C18 -/

/-- **C18.** After an insert with overwrite that returns `n`, the path finds exactly `n` values, each equal to the inserted
one: for every path that ends in a key, has no conditions and no repeated indexes and does not index into inline arrays. -/
theorem C18_insert_then_find (d : Document) (path : YamlPath) (h : AliasedYaml) (hk : (lastKey path).isSome)
    (hc : NoConditions path) (hr : NoRepeats path) (hi : ∀ y ∈ yamlItems d, AvoidsInline path y) :
    ((d.insertIntoHash path h true).2.findValues path).1 =
      List.replicate (d.insertIntoHash path h true).1 h.value := by
  unfold Document.findValues Document.insertIntoHash
  rw [overItems_list, overItems_items, overItems_nat, List.flatMap_map]
  apply flatMap_replicate_sum
  intro y hy
  rw [C23_find_off_inline path (Yaml.insertIntoHash path h true y).2
    (avoidsInline_editHash (insertClosure h true) _ _ (hi y hy))]
  exact lookup_insert path h hc hr hk y (hi y hy)

theorem keyPath_facts (k : Str) (ks : List Str) : (lastKey (keyPath k ks)).isSome ∧
    NoConditions (keyPath k ks) ∧ NoRepeats (keyPath k ks) ∧ ∀ y, AvoidsInline (keyPath k ks) y := by
  induction ks generalizing k with
  | nil => exact ⟨rfl, rfl, trivial, fun _ => trivial⟩
  | cons k' ks ih =>
    obtain ⟨h1, h2, h3, h4⟩ := ih k'
    exact ⟨h1, ⟨rfl, h2⟩, h3, fun y v _ => h4 v⟩

/-- **C18.** The same for every path of keys, without conditions on the document. -/
theorem C18_insert_then_find_keys (d : Document) (k : Str) (ks : List Str) (h : AliasedYaml) :
    ((d.insertIntoHash (keyPath k ks) h true).2.findValues (keyPath k ks)).1 =
      List.replicate (d.insertIntoHash (keyPath k ks) h true).1 h.value := by
  obtain ⟨h1, h2, h3, h4⟩ := keyPath_facts k ks
  exact C18_insert_then_find d _ h h1 h2 h3 fun y _ => h4 y

example : (sampleDoc.insertIntoHash (keyPath "a".toList ["b".toList]) ⟨none, .unquotedString "2".toList⟩ true).1 = 1 := by
  decide +kernel

/-! ## C20: nothing is found after a removal -/

theorem removeClosure_keys (data : List HashData) (k : Str) (hd : (keysOf data).Nodup) :
    k ∉ keysOf (removeClosure data k (data.findIdx? (HashData.hasKey k))).2 := by
  rcases removeClosure_spec data k with ⟨h0, h1⟩ | ⟨h0, pre, v, post, ⟨rfl, hn⟩, h1⟩
  · rw [h1]
    simp only [removeClosure] at h0
    cases hi : data.findIdx? (HashData.hasKey k) with
    | none => exact findIdx_none _ _ hi
    | some i => rw [hi] at h0; cases h0
  · rw [h1]
    have hx : keysOf (pre ++ .element ⟨k, v⟩ :: post) = keysOf pre ++ k :: keysOf post := by
      simp [keysOf, List.filterMap_append, List.filterMap_cons]
    rw [hx] at hd
    have hy : keysOf (pre ++ post) = keysOf pre ++ keysOf post := by simp [keysOf, List.filterMap_append]
    rw [hy, List.mem_append]
    rintro (h | h)
    · exact hn h
    · exact (List.nodup_cons.1 (List.nodup_append.1 hd).2.1).1 h

theorem distinctKeys_hash_iff {ds : List HashData} : DistinctKeys (.hash ds) ↔
    (keysOf ds).Nodup ∧ ∀ k a v, HashData.element ⟨k, ⟨a, v⟩⟩ ∈ ds → DistinctKeys v :=
  ⟨fun h => by cases h with | hash h h' => exact ⟨h, h'⟩, fun h => .hash h.1 h.2⟩

theorem distinctKeys_elements {y : Yaml} (h : DistinctKeys y) : ∀ e ∈ elements y, DistinctKeys e := by
  cases h with
  | inlineArray h => exact h
  | array h =>
    intro e he
    obtain ⟨a, ha⟩ := mem_elementValues.1 he
    exact h a e ha
  | _ => simp [elements]

theorem edits_distinctKeys {E} (hE : ∀ ds ds', E ds ds' → DistinctKeys (.hash ds) → DistinctKeys (.hash ds'))
    {ls : List Loc} {y y' : Yaml} (h : Edits E ls y y') (hy : DistinctKeys y) : DistinctKeys y' := by
  induction h with
  | none y => exact hy
  | here h => exact hE _ _ h hy
  | @inHash ds i k a v v' ls hi _ ih =>
    rw [distinctKeys_hash_iff] at hy ⊢
    obtain ⟨p, q, rfl, rfl⟩ := split_at hi
    rw [set_append_length]
    refine ⟨?_, ?_⟩
    · simpa [keysOf, List.filterMap_append, List.filterMap_cons] using hy.1
    intro k' a' w hw
    rcases List.mem_append.1 hw with hw | hw
    · exact hy.2 k' a' w (by simp [hw])
    · rcases List.mem_cons.1 hw with hw | hw
      · cases hw
        exact ih (hy.2 k a v (by simp))
      · exact hy.2 k' a' w (by simp [hw])
  | @inArray ds i a v v' ls hi _ ih =>
    cases hy with
    | array hy =>
    refine .array ?_
    obtain ⟨p, q, rfl, rfl⟩ := split_at hi
    rw [set_append_length]
    intro a' w hw
    rcases List.mem_append.1 hw with hw | hw
    · exact hy a' w (by simp [hw])
    · rcases List.mem_cons.1 hw with hw | hw
      · cases hw
        exact ih (hy a v (by simp))
      · exact hy a' w (by simp [hw])
  | @inInlineArray es i v v' ls hi _ ih =>
    cases hy with
    | inlineArray hy =>
    refine .inlineArray ?_
    obtain ⟨p, q, rfl, rfl⟩ := split_at hi
    rw [set_append_length]
    intro w hw
    rcases List.mem_append.1 hw with hw | hw
    · exact hy w (by simp [hw])
    · rcases List.mem_cons.1 hw with rfl | hw
      · exact ih (hy v (by simp))
      · exact hy w (by simp [hw])
  | seq _ _ ih1 ih2 => exact ih2 (ih1 hy)

theorem removes_distinctKeys {k : Str} {ds ds' : List HashData} (h : Removes k ds ds')
    (hd : DistinctKeys (.hash ds)) : DistinctKeys (.hash ds') := by
  obtain ⟨pre, v, post, ⟨rfl, -⟩, rfl⟩ := h
  rw [distinctKeys_hash_iff] at hd ⊢
  refine ⟨?_, fun k a w hw => hd.2 k a w (by
    rcases List.mem_append.1 hw with h | h <;> simp [h])⟩
  refine List.Sublist.nodup ?_ hd.1
  simp only [keysOf, List.filterMap_append, List.filterMap_cons]
  exact List.Sublist.append (.refl _) (List.sublist_cons_self _ _)

theorem remove_distinctKeys (path : YamlPath) (y : Yaml) (hy : DistinctKeys y) :
    DistinctKeys (y.removeFromHash path).2 := by
  cases hk : lastKey path with
  | none =>
    unfold Yaml.removeFromHash
    rw [editHash_no_key _ path hk]; exact hy
  | some k =>
    obtain ⟨ls, -, he⟩ := remove_editsBy path k hk y _ rfl
    exact edits_distinctKeys (fun _ _ h => removes_distinctKeys h) he hy

/-- Lookup after a removal finds nothing. -/
theorem lookup_remove (path : YamlPath) (hk : (lastKey path).isSome) (y : Yaml) (hy : DistinctKeys y) :
    lookup path (y.removeFromHash path).2 = [] := by
  unfold Yaml.removeFromHash
  have helem : ∀ (p : YamlPath) cs, (∀ y, DistinctKeys y → lookup p (Yaml.editHash removeClosure p y).2 = []) →
      ∀ e, DistinctKeys e → Fits cs (visitTree cs (Yaml.editHash removeClosure p) e) →
      lookup p (visitTree cs (Yaml.editHash removeClosure p) e) = [] := by
    intro p cs ih e he hf
    unfold visitTree at hf ⊢
    split at hf
    · rename_i h; rw [if_pos h]; exact ih e he
    · rename_i h; exact absurd ((fitsConditions_iff e cs).2 hf) h
  induction path using lastKey.induct generalizing y with
  | case1 cs => cases hk
  | case2 k cs =>
    cases y with
    | hash data =>
      simp only [Yaml.editHash]
      split
      · simp only [Yaml.keyIndex, lookup]
        rw [firstValue_none (removeClosure_keys data k (distinctKeys_hash_iff.1 hy).1)]
        exact ite_self _
      · rename_i h
        have : ¬ Fits cs (.hash data) := fun h' => h ((fitsConditions_iff _ cs).2 h')
        simp [lookup, this]
    | _ => simp [editHash_key_other, lookup, firstValue]
  | case3 k cs p ih =>
    simp only [lastKey] at hk
    cases y with
    | hash data =>
      simp only [Yaml.editHash]
      split
      · simp only [Yaml.keyIndex]
        cases hi : data.findIdx? (HashData.hasKey k) with
        | none =>
          simp only [lookup]
          rw [firstValue_none (findIdx_none _ _ hi)]
          simp
        | some i =>
          obtain ⟨pre, ⟨a, w⟩, post, hfe, rfl⟩ := findIdx_spec _ _ _ hi
          simp only [hfe.get]
          have hw : DistinctKeys w := (distinctKeys_hash_iff.1 hy).2 k a w (by rw [hfe.1]; simp)
          rw [hfe.1, set_append_length]
          have hfe' : FirstEntry k (pre ++ .element ⟨k, ⟨a, (Yaml.editHash removeClosure p w).2⟩⟩ :: post) pre
              ⟨a, (Yaml.editHash removeClosure p w).2⟩ post := ⟨rfl, hfe.2⟩
          simp only [lookup]
          rw [hfe'.firstValue]
          simp [ih hk w hw]
      · rename_i h
        have : ¬ Fits cs (.hash data) := fun h' => h ((fitsConditions_iff _ cs).2 h')
        simp [lookup, this]
    | _ => simp [editHash_key_other, lookup, firstValue]
  | case4 cs => cases hk
  | case5 cs p ih =>
    simp only [lastKey] at hk
    have main : ∀ es : List Yaml, (∀ e ∈ es, DistinctKeys e) → open Classical in
        (((overInline cs (Yaml.editHash removeClosure p) 0 es).2.filter fun e => Fits cs e).flatMap (lookup p)) = [] := by
      intro es hes
      rw [List.flatMap_eq_nil_iff]
      intro e he
      rw [List.mem_filter, overInline_snd] at he
      obtain ⟨he, hf⟩ := he
      obtain ⟨x, hx, rfl⟩ := List.mem_map.1 he
      exact helem p cs (ih hk) x (hes x hx) (by simpa using hf)
    have hel := distinctKeys_elements hy
    cases y with
    | inlineArray es => simp only [Yaml.editHash, lookup, elements]; exact main es hel
    | array ds =>
      simp only [Yaml.editHash, overArray_values, lookup, elements]
      rw [elementValues_setValues _ _ (by simp [overInline_snd])]
      exact main _ hel
    | _ => simp [Yaml.editHash, lookup, elements]
  | case6 is cs => cases hk
  | case7 is cs p ih =>
    simp only [lastKey] at hk
    have main : ∀ es : List Yaml, (∀ e ∈ es, DistinctKeys e) → open Classical in
        (((is.filterMap fun i => (atInline cs (Yaml.editHash removeClosure p) is 0 es).2[i]?).filter
          fun e => Fits cs e).flatMap (lookup p)) = [] := by
      intro es hes
      rw [List.flatMap_eq_nil_iff]
      intro e he
      rw [List.mem_filter] at he
      obtain ⟨he, hf⟩ := he
      obtain ⟨i, hi, he⟩ := List.mem_filterMap.1 he
      rw [atInline_snd] at he
      obtain ⟨x, hx, rfl⟩ := foldl_modify_mem _ DistinctKeys (fun e he => by
        unfold visitTree
        split
        · exact remove_distinctKeys p e he
        · exact he) is es hes i hi e he
      exact helem p cs (ih hk) x hx (by simpa using hf)
    have hel := distinctKeys_elements hy
    cases y with
    | inlineArray es => simp only [Yaml.editHash, lookup, elements]; exact main es hel
    | array ds =>
      simp only [Yaml.editHash, atArray_values, lookup, elements]
      rw [elementValues_setValues _ _ (atInline_length _ _ _ _ _)]
      exact main _ hel
    | _ => simp [Yaml.editHash, lookup, elements]

/-- **C20.** When the keys of each block hash are distinct, a following find_values on the same path (ending in a key)
returns nothing: for any conditions and indexes, provided the path does not index into inline arrays. -/
theorem C20_remove_then_find (d : Document) (path : YamlPath) (hk : (lastKey path).isSome)
    (hd : ∀ y ∈ yamlItems d, DistinctKeys y) (hi : ∀ y ∈ yamlItems d, AvoidsInline path y) :
    ((d.removeFromHash path).2.findValues path).1 = [] := by
  unfold Document.findValues Document.removeFromHash
  rw [overItems_list, overItems_items, List.flatMap_map, List.flatMap_eq_nil_iff]
  intro y hy
  rw [C23_find_off_inline path (Yaml.removeFromHash path y).2
    (avoidsInline_editHash removeClosure _ _ (hi y hy))]
  exact lookup_remove path hk y (hd y hy)

/-- Distinctness is needed: of two entries with the same key only the first is removed. -/
theorem C20_duplicate_keys_counterexample :
    ((Yaml.removeFromHash (keyPath ['a'] []) (.hash [.element ⟨['a'], ⟨none, .unquotedString ['1']⟩⟩,
      .element ⟨['a'], ⟨none, .unquotedString ['2']⟩⟩])).2.findValues (keyPath ['a'] [])).1 ≠ [] := by
  decide +kernel

/-! ## C21: how many entries are renamed -/

theorem atInline_length_eq (cs : List Condition) (g : Yaml → Nat × Yaml) (g' : Yaml → List Yaml × Yaml)
    (hg : ∀ e, (g e).1 = (g' e).1.length) (hr : ∀ e, (g' e).2 = e) (is : List Nat) (hn : is.Nodup) (es : List Yaml) :
    (atInline cs g is 0 es).1 = (atInline cs g' is [] es).1.length := by
  rw [atInline_nat _ _ _ hn, atInline_list _ _ hr]
  simp only [Nat.zero_add, List.nil_append]
  induction is.filterMap fun i => es[i]? with
  | nil => rfl
  | cons e t ih =>
    rw [List.map_cons, List.sum_cons, ih, List.flatMap_cons, List.length_append]
    congr 1
    unfold visitVal
    split
    · exact hg e
    · rfl

theorem overInline_length_eq (cs : List Condition) (g : Yaml → Nat × Yaml) (g' : Yaml → List Yaml × Yaml)
    (hg : ∀ e, (g e).1 = (g' e).1.length) (es : List Yaml) :
    (overInline cs g 0 es).1 = (overInline cs g' [] es).1.length := by
  rw [overInline_nat, overInline_list]
  simp only [Nat.zero_add, List.nil_append]
  induction es with
  | nil => rfl
  | cons e t ih =>
    rw [List.map_cons, List.sum_cons, ih, List.flatMap_cons, List.length_append]
    congr 1
    unfold visitVal
    split
    · exact hg e
    · rfl

theorem forHash_count (f : HashElement → Nat × HashElement) (hf : ∀ e, (f e).1 = 1) (r : Yaml → Nat × Yaml)
    (path : YamlPath) (hk : (lastKey path).isSome) (hr : NoRepeats path) (y : Yaml) :
    (Yaml.forHash f r path y).1 = (y.findValues path).1.length := by
  have hall : ∀ cs (g : Yaml → Nat × Yaml) (g' : Yaml → List Yaml × Yaml) (hg : ∀ e, (g e).1 = (g' e).1.length)
      n y, (forAllIndexes cs g n y).1 = (forAllIndexes cs g' n y).1.length := by
    intro cs g g' hg n
    induction n with
    | zero => intro y; rfl
    | succ n ih =>
      intro y
      cases y with
      | inlineArray es => exact overInline_length_eq cs _ _ ih es
      | array ds =>
        simp only [forAllIndexes, overArray_values]
        exact overInline_length_eq cs _ _ hg _
      | _ => rfl
  have hidx : ∀ is (hn : is.Nodup) cs (g : Yaml → Nat × Yaml) (g' : Yaml → List Yaml × Yaml)
      (hg : ∀ e, (g e).1 = (g' e).1.length) (hr : ∀ e, (g' e).2 = e)
      n y, (forIndexes is cs g n y).1 = (forIndexes is cs g' n y).1.length ∧ (forIndexes is cs g' n y).2 = y := by
    intro is hn cs g g' hg hr n
    induction n with
    | zero => intro y; exact ⟨rfl, rfl⟩
    | succ n ih =>
      intro y
      cases y with
      | inlineArray es =>
        refine ⟨atInline_length_eq cs _ _ (fun e => (ih e).1) (fun e => (ih e).2) is hn es, ?_⟩
        simp only [forIndexes]
        rw [atInline_list _ _ fun e => (ih e).2]
      | array ds =>
        simp only [forIndexes, atArray_values]
        refine ⟨atInline_length_eq cs _ _ hg hr is hn _, ?_⟩
        rw [atInline_list _ _ hr, setValues_self]
      | _ => exact ⟨rfl, rfl⟩
  have hkey : ∀ k cs (g : HashElement → Nat × HashElement) (g' : HashElement → List Yaml × HashElement)
      (hg : ∀ v, (g ⟨k, v⟩).1 = (g' ⟨k, v⟩).1.length) y, (forKey k cs g y).1 = (forKey k cs g' y).1.length := by
    intro k cs g g' hg y
    unfold forKey
    split
    · cases y with
      | hash data =>
        simp only [Yaml.keyIndex]
        cases hi : data.findIdx? (HashData.hasKey k) with
        | none => rfl
        | some i =>
          obtain ⟨pre, v, post, hfe, rfl⟩ := findIdx_spec _ _ _ hi
          simp only [hfe.get]
          exact hg v
      | _ => rfl
    · rfl
  unfold Yaml.findValues
  induction path using lastKey.induct generalizing y with
  | case1 cs => cases hk
  | case2 k cs => exact hkey _ _ _ _ (fun v => by simp [hf]) _
  | case3 k cs p ih => exact hkey _ _ _ _ (fun v => ih hk hr _) _
  | case4 cs => cases hk
  | case5 cs p ih => exact hall _ _ _ (ih hk hr) _ _
  | case6 is cs => cases hk
  | case7 is cs p ih => exact (hidx is hr.1 _ _ _ (ih hk hr.2) (find_readonly p) _ _).1

theorem sum_map_length {α : Type} (l : List α) (f : α → Nat) (g : α → List Yaml) (h : ∀ x, f x = (g x).length) :
    (l.map f).sum = (l.flatMap g).length := by
  induction l with
  | nil => rfl
  | cons a t ih => rw [List.map_cons, List.sum_cons, ih, List.flatMap_cons, List.length_append, h]

/-- **C21.** When the path ends in a key and repeats no index, the count of rename equals the number of values that
find_values reports. -/
theorem C21_rename_count (d : Document) (path : YamlPath) (new : Str) (hk : (lastKey path).isSome)
    (hr : NoRepeats path) : (d.renameField path new).1 = (d.findValues path).1.length := by
  unfold Document.renameField Document.findValues
  rw [overItems_nat, overItems_list]
  exact sum_map_length _ _ _ fun y => forHash_count _ (fun _ => rfl) _ path hk hr y

/-- **C22.** The same for to_object. -/
theorem C22_to_object_count (d : Document) (path : YamlPath) (obj : Str) (hk : (lastKey path).isSome)
    (hr : NoRepeats path) : (d.toObject path obj).1 = (d.findValues path).1.length := by
  unfold Document.toObject Document.findValues
  rw [overItems_nat, overItems_list]
  exact sum_map_length _ _ _ fun y => forHash_count _ (fun _ => rfl) _ path hk hr y

/-- A repeated index makes the difference: the second visit no longer finds the old name. -/
theorem C21_repeated_index :
    let d : Document := ⟨[], [.yaml (.hash [.element ⟨['k'], ⟨none, .array [.element ⟨none,
      .hash [.element ⟨['a'], ⟨none, .unquotedString ['1']⟩⟩]⟩]⟩⟩])]⟩
    let p : YamlPath := .key ['k'] [] (some (.indexes [0, 0] [] (some (.key ['a'] [] none))))
    (d.renameField p ['b']).1 = 1 ∧ (d.findValues p).1.length = 2 := by decide +kernel

/-! ## `for_hash` as an edit of hash data -/

/-- The closure of an edit of the entry with the key. -/
def elementClosure (f : HashElement → Nat × HashElement) (data : List HashData) (_k : Str) (i : Option Nat) :
    Nat × List HashData :=
  match i with
  | none => (0, data)
  | some i =>
    match data[i]? with
    | some (.element e) => ((f e).1, data.set i (.element (f e).2))
    | _ => (0, data)

theorem overInline_congr {A : Type} [Additive A] (cs : List Condition) (g g' : Yaml → A × Yaml) (c : A) (es : List Yaml)
    (h : ∀ e ∈ es, g e = g' e) : overInline cs g c es = overInline cs g' c es := by
  induction es generalizing c with
  | nil => rfl
  | cons e t ih =>
    have ih := fun c => ih c fun e he => h e (by simp [he])
    simp only [overInline, h e (by simp), ih]

theorem atInline_congr {A : Type} [Additive A] (cs : List Condition) (g g' : Yaml → A × Yaml) (is : List Nat) (c : A)
    (es : List Yaml) (I : Yaml → Prop) (hI : ∀ e, I e → I (g' e).2) (hes : ∀ e ∈ es, I e) (h : ∀ e, I e → g e = g' e) :
    atInline cs g is c es = atInline cs g' is c es := by
  induction is generalizing c es with
  | nil => rfl
  | cons i is ih =>
    simp only [atInline]
    split
    · rename_i e he
      have hie := hes e (List.mem_iff_getElem?.2 ⟨i, he⟩)
      rw [h e hie]
      split
      · apply ih
        intro x hx
        rcases List.mem_or_eq_of_mem_set hx with hx | rfl
        · exact hes x hx
        · exact hI e hie
      · exact ih _ _ hes
    · exact ih _ _ hes

/-- Off inline arrays, `for_hash` with a closure for the entry is `edit_hash_structure`. -/
theorem forHash_eq_editHash (f : HashElement → Nat × HashElement) (path : YamlPath) (hk : (lastKey path).isSome)
    (y : Yaml) (hy : AvoidsInline path y) :
    Yaml.forHash f (fun h => (0, h)) path y = Yaml.editHash (elementClosure f) path y := by
  induction path using lastKey.induct generalizing y with
  | case1 cs => cases hk
  | case2 k cs =>
    cases y with
    | hash data =>
      simp only [Yaml.forHash, forKey, Yaml.editHash, Yaml.keyIndex, elementClosure]
      split
      · cases hi : data.findIdx? (HashData.hasKey k) with
        | none => rfl
        | some i =>
          obtain ⟨pre, v, post, hfe, rfl⟩ := findIdx_spec _ _ _ hi
          simp only [hfe.get, if_true]
      · rfl
    | _ =>
      rw [editHash_key_other _ _ _ _ _ (by simp)]
      simp only [Yaml.forHash, forKey, Yaml.keyIndex]
      split <;> rfl
  | case3 k cs p ih =>
    simp only [lastKey] at hk
    cases y with
    | hash data =>
      simp only [Yaml.forHash, forKey, Yaml.editHash, Yaml.keyIndex]
      split
      · cases hi : data.findIdx? (HashData.hasKey k) with
        | none => rfl
        | some i =>
          obtain ⟨pre, ⟨a, w⟩, post, hfe, rfl⟩ := findIdx_spec _ _ _ hi
          simp only [hfe.get]
          rw [ih hk w (hy _ hfe.firstValue)]
      · rfl
    | _ =>
      rw [editHash_key_other _ _ _ _ _ (by simp)]
      simp only [Yaml.forHash, forKey, Yaml.keyIndex]
      split <;> rfl
  | case4 cs => cases hk
  | case5 cs p ih =>
    simp only [lastKey] at hk
    cases y with
    | inlineArray es => exact absurd rfl (hy.1 es)
    | array ds =>
      simp only [Yaml.forHash, forAllIndexes, Yaml.editHash, overArray_values]
      rw [overInline_congr _ _ _ _ (elementValues ds) fun e he => ih hk e (hy.2 e he)]
      rfl
    | _ => rfl
  | case6 is cs => cases hk
  | case7 is cs p ih =>
    simp only [lastKey] at hk
    cases y with
    | inlineArray es => exact absurd rfl (hy.1 es)
    | array ds =>
      simp only [Yaml.forHash, forIndexes, Yaml.editHash, atArray_values]
      rw [atInline_congr _ _ _ _ _ (elementValues ds) (AvoidsInline p) (fun e he => avoidsInline_editHash _ p e he) hy.2 (ih hk)]
      rfl
    | _ => rfl

/-! ## C22: the former values are found under the new key -/

theorem lookup_toObject (path : YamlPath) (obj : Str) (hk : (lastKey path).isSome) (hc : NoConditions path)
    (hr : NoRepeats path) (y : Yaml) (hy : AvoidsInline path y) :
    lookup (path.insert (.key obj [] none)) (y.toObject path obj).2 = lookup path y := by
  unfold Yaml.toObject
  rw [forHash_eq_editHash _ path hk y hy]
  generalize hf : (elementClosure fun e => (1, (⟨e.key, ⟨none, .hash [.element ⟨obj, e.value⟩]⟩⟩ : HashElement))) = f
  induction path using lastKey.induct generalizing y with
  | case1 cs => cases hk
  | case2 k cs =>
    simp only [NoConditions] at hc; subst hc
    cases y with
    | hash data =>
      simp only [Yaml.editHash, fitsConditions_nil, if_true, Yaml.keyIndex, YamlPath.insert, lookup, fits_nil]
      subst hf
      cases hi : data.findIdx? (HashData.hasKey k) with
      | none =>
        simp only [elementClosure]
        rw [firstValue_none (findIdx_none _ _ hi)]; rfl
      | some i =>
        obtain ⟨pre, v, post, hfe, rfl⟩ := findIdx_spec _ _ _ hi
        simp only [elementClosure, hfe.get]
        rw [hfe.firstValue, hfe.1, set_append_length]
        have hfe' : FirstEntry k (pre ++ .element ⟨k, ⟨none, .hash [.element ⟨obj, v⟩]⟩⟩ :: post) pre
            ⟨none, .hash [.element ⟨obj, v⟩]⟩ post := ⟨rfl, hfe.2⟩
        rw [hfe'.firstValue]
        obtain ⟨a, w⟩ := v
        simp [firstValue]
    | _ => simp [editHash_key_other, lookup, firstValue, YamlPath.insert]
  | case3 k cs p ih =>
    simp only [NoConditions] at hc; obtain ⟨rfl, hc⟩ := hc
    simp only [NoRepeats] at hr
    simp only [lastKey] at hk
    cases y with
    | hash data =>
      simp only [Yaml.editHash, fitsConditions_nil, if_true, Yaml.keyIndex, YamlPath.insert, lookup, fits_nil]
      cases hi : data.findIdx? (HashData.hasKey k) with
      | none =>
        simp only
        rw [firstValue_none (findIdx_none _ _ hi)]
        rfl
      | some i =>
        obtain ⟨pre, ⟨a, w⟩, post, hfe, rfl⟩ := findIdx_spec _ _ _ hi
        simp only [hfe.get]
        have hw := hy _ hfe.firstValue
        rw [hfe.firstValue, hfe.1, set_append_length]
        have hfe' : FirstEntry k (pre ++ .element ⟨k, ⟨a, (Yaml.editHash f p w).2⟩⟩ :: post) pre
            ⟨a, (Yaml.editHash f p w).2⟩ post := ⟨rfl, hfe.2⟩
        rw [hfe'.firstValue]
        simp [ih hk hc hr w hw]
    | _ => simp [editHash_key_other, lookup, firstValue, YamlPath.insert]
  | case4 cs => cases hk
  | case5 cs p ih =>
    simp only [NoConditions] at hc; obtain ⟨rfl, hc⟩ := hc
    simp only [NoRepeats] at hr
    simp only [lastKey] at hk
    have ih := ih hk hc hr
    cases y with
    | inlineArray es => exact absurd rfl (hy.1 es)
    | array ds =>
      simp only [Yaml.editHash, overArray_values, YamlPath.insert, lookup, elements, filter_fits_nil]
      rw [elementValues_setValues _ _ (by simp [overInline_snd]), overInline_snd, List.flatMap_map]
      simp only [List.flatMap]
      congr 1
      apply List.map_congr_left
      intro e he
      simp only [visitTree, fitsConditions_nil, if_true]
      exact ih e (hy.2 e he)
    | _ => simp [Yaml.editHash, lookup, elements, YamlPath.insert]
  | case6 is cs => cases hk
  | case7 is cs p ih =>
    simp only [NoConditions] at hc; obtain ⟨rfl, hc⟩ := hc
    simp only [NoRepeats] at hr
    simp only [lastKey] at hk
    have ih := ih hk hc hr.2
    cases y with
    | inlineArray es => exact absurd rfl (hy.1 es)
    | array ds =>
      simp only [Yaml.editHash, atArray_values, YamlPath.insert, lookup, elements, filter_fits_nil]
      rw [elementValues_setValues _ _ (atInline_length _ _ _ _ _), atInline_snd,
        filterMap_at (fun i hi => foldl_modify_nodup _ is hr.1 _ i hi), List.flatMap_map]
      simp only [List.flatMap]
      congr 1
      apply List.map_congr_left
      intro e he
      simp only [visitTree, fitsConditions_nil, if_true]
      exact ih e (hy.2 e (mem_filterMap_at he))
    | _ =>
      simp only [Yaml.editHash, lookup, elements, YamlPath.insert, List.getElem?_nil]
      rw [show (is.filterMap fun _ => (none : Option Yaml)) = [] from List.filterMap_eq_nil_iff.2 fun _ _ => rfl]
      rfl

/-- `AvoidsInline` for a path with a key appended. -/
theorem avoidsInline_insert_key (path : YamlPath) (obj : Str) (hk : (lastKey path).isSome) (y : Yaml)
    (hy : AvoidsInline path y) : AvoidsInline (path.insert (.key obj [] none)) y := by
  induction path using lastKey.induct generalizing y with
  | case1 cs => cases hk
  | case2 k cs => intro v _; trivial
  | case3 k cs p ih => intro v hv; exact ih hk v (hy v hv)
  | case4 cs => cases hk
  | case5 cs p ih => exact ⟨hy.1, fun e he => ih hk e (hy.2 e he)⟩
  | case6 is cs => cases hk
  | case7 is cs p ih => exact ⟨hy.1, fun e he => ih hk e (hy.2 e he)⟩

/-- **C22.** After to_object, find_values on the path extended with the new key returns the former values: for every path that ends
in a key, has no conditions and no repeated indexes and does not index into inline arrays. -/
theorem C22_to_object_then_find (d : Document) (path : YamlPath) (obj : Str) (hk : (lastKey path).isSome)
    (hc : NoConditions path) (hr : NoRepeats path) (hi : ∀ y ∈ yamlItems d, AvoidsInline path y) :
    ((d.toObject path obj).2.findValues (path.insert (.key obj [] none))).1 = (d.findValues path).1 := by
  unfold Document.findValues Document.toObject
  rw [overItems_list, overItems_items, overItems_list, List.flatMap_map]
  simp only [List.flatMap]
  congr 1
  apply List.map_congr_left
  intro y hy
  have h1 : AvoidsInline path (y.toObject path obj).2 := by
    unfold Yaml.toObject
    rw [forHash_eq_editHash _ path hk y (hi y hy)]
    exact avoidsInline_editHash _ _ _ (hi y hy)
  rw [C23_find_off_inline _ _ (avoidsInline_insert_key path obj hk _ h1),
    C23_find_off_inline _ _ (hi y hy)]
  exact lookup_toObject path obj hk hc hr y (hi y hy)

/-- **C22.** The same for every path of keys, without conditions on the document. -/
theorem C22_to_object_then_find_keys (d : Document) (k : Str) (ks : List Str) (obj : Str) :
    ((d.toObject (keyPath k ks) obj).2.findValues ((keyPath k ks).insert (.key obj [] none))).1 =
      (d.findValues (keyPath k ks)).1 := by
  obtain ⟨h1, h2, h3, h4⟩ := keyPath_facts k ks
  exact C22_to_object_then_find d _ obj h1 h2 h3 fun y _ => h4 y

example : (sampleDoc.findValues (keyPath "a".toList ["b".toList])).1.length = 1 := by decide +kernel

end YamlSubset
