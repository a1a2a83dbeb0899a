import Verif.Spec.Frame
import Verif.Props.EditUndo

/-! # What an edit leaves alone (C57) -/

namespace YamlSubset

open Spec

/-- The closure touches only entries with the given names. -/
def Closure.Frames (f : Closure) (last : Str) (names : List Str) : Prop :=
  ∀ ds k, k ∉ names → keyValueIn k (f.run last ds) = keyValueIn k ds

/-- An index step: the listed elements, or all. -/
def indexStep : Option (List Nat) → List Condition → YamlPath → YamlPath
  | some is, cs, p => .indexes is cs (some p)
  | none, cs, p => .allIndexes cs (some p)

theorem keyValueIn_append_other {k k' : Str} {v : AliasedYaml} {ds : List HashData} (h : k' ≠ k) :
    keyValueIn k' (ds ++ [.element ⟨k, v⟩]) = keyValueIn k' ds := by
  induction ds with
  | nil => simp [keyValueIn, Ne.symm h]
  | cons d t ih =>
    match d with
    | .element e => simp only [List.cons_append, keyValueIn, ih]
    | .comment _ => simpa only [List.cons_append, keyValueIn] using ih
    | .inlineComment _ => simpa only [List.cons_append, keyValueIn] using ih

theorem keyValueIn_erase_other {k k' : Str} {v : AliasedYaml} {pre post : List HashData} (h : k' ≠ k) :
    keyValueIn k' (pre ++ post) = keyValueIn k' (pre ++ .element ⟨k, v⟩ :: post) := by
  induction pre with
  | nil => simp [keyValueIn, Ne.symm h]
  | cons d t ih =>
    match d with
    | .element e => simp only [List.cons_append, keyValueIn, ih]
    | .comment _ => simpa only [List.cons_append, keyValueIn] using ih
    | .inlineComment _ => simpa only [List.cons_append, keyValueIn] using ih

theorem insert_frames (h : AliasedYaml) (o : Bool) (k : Str) : Closure.Frames (insertClosure h o) k [k] := by
  intro ds k' hk
  rw [List.mem_singleton] at hk
  rcases absent_or_first k ds with ha | ⟨pre, v, post, rfl, ha⟩
  · rw [run_insert_absent h o ha, keyValueIn_append_other hk]
  · rw [run_insert_present h o ha, keyValueIn_other hk hk]

theorem remove_frames (k : Str) : Closure.Frames removeClosure k [k] := by
  intro ds k' hk
  rw [List.mem_singleton] at hk
  rcases absent_or_first k ds with ha | ⟨pre, v, post, rfl, ha⟩
  · rw [run_remove_absent ha]
  · rw [run_remove_present ha, keyValueIn_erase_other hk]

theorem element_frames (f : HashElement → Nat × HashElement) (k new : Str)
    (hf : ∀ v, (f ⟨k, v⟩).2.key = new) : Closure.Frames (elementClosure f) k [k, new] := by
  intro ds k' hk
  simp only [List.mem_cons, List.not_mem_nil, or_false, not_or] at hk
  obtain ⟨hk, hn⟩ := hk
  rcases absent_or_first k ds with ha | ⟨pre, v, post, rfl, ha⟩
  · simp only [Closure.run, findIdx_absent ha, elementClosure]
  · have hfe : FirstEntry k (pre ++ .element ⟨k, v⟩ :: post) pre v post := ⟨rfl, ha⟩
    simp only [Closure.run, hfe.findIdx, elementClosure, hfe.get]
    rw [set_append_length]
    have := hf v
    generalize (f ⟨k, v⟩).2 = e at this
    obtain ⟨ke, w⟩ := e
    simp only at this
    subst this
    exact keyValueIn_other hk hn

theorem asString_editHash (f : Closure) (path : YamlPath) (y : Yaml) :
    (Yaml.editHash f path y).2.asString = y.asString := by
  match path with
  | .root cs => rfl
  | .key k cs none =>
    cases y with
    | hash ds => simp only [Yaml.editHash]; split <;> rfl
    | _ => rw [editHash_key_other _ _ _ _ _ (by simp)]
  | .key k cs (some p) =>
    cases y with
    | hash ds =>
      simp only [Yaml.editHash]
      split
      · split
        · split <;> rfl
        · rfl
      · rfl
    | _ => rw [editHash_key_other _ _ _ _ _ (by simp)]
  | .allIndexes cs none => rfl
  | .indexes is cs none => rfl
  | .allIndexes cs (some p) => cases y <;> rfl
  | .indexes is cs (some p) => cases y <;> rfl

/-- What an edit does to the first entry of a key: at the end of the path only the names are touched; before the end the
value of the key is edited with the rest of the path. -/
theorem keyValue_editHash {f : Closure} {last : Str} {names : List Str} (hf : f.Frames last names) {path : YamlPath}
    (hl : lastKey path = some last) (y : Yaml) (k' : Str) (hk : ∀ k cs, path = .key k cs none → k' ∉ names) :
    (Yaml.editHash f path y).2.keyValue k' = y.keyValue k' ∨
      ∃ cs p v, path = .key k' cs (some p) ∧ Fits cs y ∧ y.keyValue k' = some v ∧
        (Yaml.editHash f path y).2.keyValue k' = some ⟨v.alias, (Yaml.editHash f p v.value).2⟩ := by
  match path with
  | .root cs => cases hl
  | .key k cs none =>
    simp only [lastKey, Option.some.injEq] at hl
    subst hl
    left
    cases y with
    | hash ds =>
      simp only [Yaml.editHash]
      split
      · exact hf ds k' (hk k cs rfl)
      · rfl
    | _ => rw [editHash_key_other _ _ _ _ _ (by simp)]
  | .key k cs (some p) =>
    cases y with
    | hash ds =>
      simp only [Yaml.editHash]
      split
      · rename_i hfit
        simp only [Yaml.keyIndex]
        cases hi : ds.findIdx? (HashData.hasKey k) with
        | none => exact .inl rfl
        | some i =>
          obtain ⟨pre, ⟨a, w⟩, post, hfe, rfl⟩ := findIdx_spec _ _ _ hi
          simp only [hfe.get]
          by_cases hkk : k' = k
          · right
            subst hkk
            have hfe' : FirstEntry k' (pre ++ .element ⟨k', ⟨a, (Yaml.editHash f p w).2⟩⟩ :: post) pre
                ⟨a, (Yaml.editHash f p w).2⟩ post := ⟨rfl, hfe.2⟩
            refine ⟨cs, p, ⟨a, w⟩, rfl, (fitsConditions_iff _ _).1 hfit, hfe.keyValueIn, ?_⟩
            conv => lhs; rw [hfe.1, set_append_length]
            exact hfe'.keyValueIn
          · left
            conv => lhs; rw [hfe.1, set_append_length]
            rw [hfe.1]
            exact keyValueIn_other hkk hkk
      · exact .inl rfl
    | _ => left; rw [editHash_key_other _ _ _ _ _ (by simp)]
  | .allIndexes cs none => exact .inl rfl
  | .indexes is cs none => exact .inl rfl
  | .allIndexes cs (some p) => left; cases y <;> rfl
  | .indexes is cs (some p) => left; cases y <;> rfl

theorem fits_frame {f : Closure} {last : Str} {names : List Str} (hf : f.Frames last names) {path : YamlPath}
    (hl : lastKey path = some last) (y : Yaml) {cs : List Condition} (hc : ∀ c ∈ cs, c.field ∉ names) :
    Fits cs (Yaml.editHash f path y).2 ↔ Fits cs y := by
  rw [fits_iff_keyValue, fits_iff_keyValue]
  apply forall_congr'
  intro c
  apply imp_congr_right
  intro hm
  rcases keyValue_editHash hf hl y c.field (fun _ _ _ => hc c hm) with h | ⟨cs', p, v, -, -, h1, h2⟩
  · rw [h]
  · rw [h1, h2]
    simp only [Option.some.injEq, exists_eq_left']
    rw [asString_editHash]

/-- What find_values finds, in trees without block collections in flow collections. -/
noncomputable abbrev finds : YamlPath → Yaml → List Yaml := lookupBy selectBlock

/-- The elements of a block array. -/
def blockElements : Yaml → List Yaml
  | .array ds => elementValues ds
  | _ => []

open Classical in
/-- What a path finds below an element. -/
noncomputable def below (cs : List Condition) (q : YamlPath) (e : Yaml) : List Yaml := if Fits cs e then finds q e else []

theorem filter_flatMap_below (cs : List Condition) (q : YamlPath) (es : List Yaml) : open Classical in
    (es.filter fun e => Fits cs e).flatMap (finds q) = es.flatMap (below cs q) := by
  classical
  induction es with
  | nil => rfl
  | cons e t ih =>
    rw [List.filter_cons, List.flatMap_cons, below]
    by_cases h : Fits cs e
    · simp [h, ih]
    · simp [h, ih]

/-- What an index step finds. -/
theorem finds_indexStep (js : Option (List Nat)) (cs : List Condition) (q : YamlPath) (y : Yaml) :
    finds (indexStep js cs q) y = (atIndexes js (blockElements y)).flatMap (below cs q) := by
  have h1 : finds (indexStep js cs q) y = (selectBlock js cs y).flatMap (finds q) := by cases js <;> rfl
  rw [h1]
  cases y with
  | array ds => exact filter_flatMap_below cs q _
  | _ => cases js <;> simp [selectBlock, blockElements, atIndexes]

theorem map_modify_same {β} (L : Yaml → β) (G : Yaml → Yaml) (h : ∀ e, L (G e) = L e) (is : List Nat) (es : List Yaml) :
    (is.foldl (fun es i => es.modify i G) es).map L = es.map L := by
  induction is generalizing es with
  | nil => rfl
  | cons i is ih =>
    rw [List.foldl_cons, ih]
    apply List.ext_getElem?
    intro j
    simp only [List.getElem?_map, List.getElem?_modify]
    cases es[j]? with
    | none => rfl
    | some e => simp only [Option.map_some, Option.map_eq_map]; split <;> simp [h]

/-- An edit below an index step, on the elements. -/
theorem blockElements_editHash (f : Closure) (is : Option (List Nat)) (cs : List Condition) (p : YamlPath) (y : Yaml) :
    blockElements (Yaml.editHash f (indexStep is cs p) y).2 = match is with
      | none => (blockElements y).map (visitTree cs (Yaml.editHash f p))
      | some is => is.foldl (fun es i => es.modify i (visitTree cs (Yaml.editHash f p))) (blockElements y) := by
  have hnil : ∀ (is : List Nat) (G : Yaml → Yaml), is.foldl (fun es i => es.modify i G) [] = [] := by
    intro is G
    induction is with
    | nil => rfl
    | cons i t ih => rw [List.foldl_cons, List.modify_nil]; exact ih
  cases is with
  | none =>
    cases y <;> simp only [indexStep, Yaml.editHash, blockElements, overInline_snd, overArray_values, List.map_nil]
    exact elementValues_setValues _ _ (by simp)
  | some is =>
    cases y <;> simp only [indexStep, Yaml.editHash, blockElements, atInline_snd, atArray_values, hnil]
    exact elementValues_setValues _ _ (foldl_modify_length' _ _ _)

theorem flatMap_atIndexes {β} (L : Yaml → List β) (js : Option (List Nat)) {es es' : List Yaml} (h : es'.map L = es.map L) :
    (atIndexes js es').flatMap L = (atIndexes js es).flatMap L := by
  have key : ∀ (js : List Nat) (es : List Yaml), (js.filterMap fun i => es[i]?).flatMap L =
      (js.filterMap fun i => (es.map L)[i]?).flatten := by
    intro js es
    induction js with
    | nil => rfl
    | cons j t ih =>
      simp only [List.filterMap_cons, List.getElem?_map]
      cases es[j]? with
      | none => simpa using ih
      | some e => simpa using ih
  cases js with
  | none => simp only [atIndexes, List.flatMap, h]
  | some js => simp only [atIndexes, key, h]

/-- What a key step finds. -/
theorem finds_key_congr {k : Str} {cs : List Condition} {o : Option YamlPath} {y y' : Yaml} (hf : Fits cs y' ↔ Fits cs y)
    (hk : y'.keyValue k = y.keyValue k) : finds (.key k cs o) y' = finds (.key k cs o) y := by
  classical
  by_cases h : Fits cs y
  · cases o <;> simp [finds, lookupBy, firstValue_keyValue, hk, h, hf.2 h]
  · cases o <;> simp [finds, lookupBy, h, mt hf.1 h]

theorem finds_index_frame {f : Closure} {last : Str} {names : List Str} (hf : f.Frames last names) {p q : YamlPath}
    (hl : lastKey p = some last) (is js : Option (List Nat)) (cs : List Condition) (cs' : List Condition)
    (hc : ∀ c ∈ cs', c.field ∉ names) (ih : ∀ y, finds q (Yaml.editHash f p y).2 = finds q y) (y : Yaml) :
    finds (indexStep js cs' q) (Yaml.editHash f (indexStep is cs p) y).2 = finds (indexStep js cs' q) y := by
  have hb : ∀ e, below cs' q (visitTree cs (Yaml.editHash f p) e) = below cs' q e := by
    intro e
    unfold visitTree
    split
    · have hfit := fits_frame hf hl e hc
      unfold below
      rw [ih]
      by_cases h : Fits cs' e
      · rw [if_pos h, if_pos (hfit.2 h)]
      · rw [if_neg h, if_neg (mt hfit.1 h)]
    · rfl
  rw [finds_indexStep, finds_indexStep]
  apply flatMap_atIndexes
  rw [blockElements_editHash]
  cases is with
  | none =>
    simp only [List.map_map]
    exact List.map_congr_left fun e _ => hb e
  | some is => exact map_modify_same _ _ hb is _

theorem selectBlock_elements (js : Option (List Nat)) (cs : List Condition) (y : Yaml) : open Classical in
    selectBlock js cs y = (atIndexes js (blockElements y)).filter fun e => Fits cs e := by
  cases y with
  | array ds => rfl
  | _ => cases js <;> simp [selectBlock, blockElements, atIndexes]

/-- The elements at other indexes are not changed. -/
theorem selectBlock_frame (f : Closure) {is js : List Nat} {cs cs' : List Condition} {p : YamlPath} (h : ∀ j ∈ js, j ∉ is)
    (y : Yaml) : selectBlock (some js) cs' (Yaml.editHash f (.indexes is cs (some p)) y).2 = selectBlock (some js) cs' y := by
  rw [selectBlock_elements, selectBlock_elements]
  have := blockElements_editHash f (some is) cs p y
  simp only [indexStep] at this
  rw [this]
  congr 1
  apply filterMap_congr'
  intro j hj
  exact foldl_modify_not_mem _ _ _ _ (h j hj)

/-- An edit does not change what a diverging path finds. -/
theorem finds_frame {f : Closure} {last : Str} {names : List Str} (hf : f.Frames last names) {p q : YamlPath}
    (hl : lastKey p = some last) (hd : Diverges names p q) (hc : ∀ c ∈ conditionsOf q, c.field ∉ names) (y : Yaml) :
    finds q (Yaml.editHash f p y).2 = finds q y := by
  induction hd generalizing y with
  | @last k k' cs cs' o h =>
    apply finds_key_congr (fits_frame hf hl y fun c hm => hc c (by cases o <;> simp [conditionsOf, hm]))
    rcases keyValue_editHash hf hl y k' (fun _ _ _ => h) with h1 | ⟨cs'', p, v, h1, -⟩
    · exact h1
    · cases h1
  | @keys k k' cs cs' p o h =>
    apply finds_key_congr (fits_frame hf hl y fun c hm => hc c (by cases o <;> simp [conditionsOf, hm]))
    rcases keyValue_editHash hf hl y k' (fun _ _ h => by cases h) with h1 | ⟨cs'', p, v, h1, -⟩
    · exact h1
    · cases h1; exact absurd rfl h
  | @indexes is js cs cs' p o h =>
    have hs := selectBlock_frame f (p := p) h (cs := cs) (cs' := cs') y
    cases o with
    | none => exact hs
    | some q => exact congrArg (·.flatMap (finds q)) hs
  | @key k cs cs' p q h ih =>
    have ih := ih hl (fun c hm => hc c (by simp [conditionsOf, hm]))
    have hfit := fits_frame hf hl y (cs := cs') fun c hm => hc c (by simp [conditionsOf, hm])
    rcases keyValue_editHash hf hl y k (fun _ _ h => by cases h) with h1 | ⟨cs'', p', v, h1, -, h2, h3⟩
    · exact finds_key_congr hfit h1
    · cases h1
      by_cases h : Fits cs' y
      · simp only [finds, lookupBy, firstValue_keyValue, h2, h3, h, hfit.2 h, if_true, Option.map_some, Option.toList_some,
          List.flatMap_cons, List.flatMap_nil, List.append_nil]
        exact ih _
      · simp [finds, lookupBy, h, mt hfit.1 h]
  | @allAll cs cs' p q h ih =>
    exact finds_index_frame (p := p) (q := q) hf hl none none cs cs' (fun c hm => hc c (by simp [conditionsOf, hm]))
      (ih hl fun c hm => hc c (by simp [conditionsOf, hm])) y
  | @allSome js cs cs' p q h ih =>
    exact finds_index_frame (p := p) (q := q) hf hl none (some js) cs cs' (fun c hm => hc c (by simp [conditionsOf, hm]))
      (ih hl fun c hm => hc c (by simp [conditionsOf, hm])) y
  | @someAll is cs cs' p q h ih =>
    exact finds_index_frame (p := p) (q := q) hf hl (some is) none cs cs' (fun c hm => hc c (by simp [conditionsOf, hm]))
      (ih hl fun c hm => hc c (by simp [conditionsOf, hm])) y
  | @someSome is js cs cs' p q h ih =>
    exact finds_index_frame (p := p) (q := q) hf hl (some is) (some js) cs cs' (fun c hm => hc c (by simp [conditionsOf, hm]))
      (ih hl fun c hm => hc c (by simp [conditionsOf, hm])) y

/-! ## Documents -/

theorem find_frame {f : Closure} {last : Str} {names : List Str} (hf : f.Frames last names) {p q : YamlPath}
    (hl : lastKey p = some last) (hd : Diverges names p q) (hc : ∀ c ∈ conditionsOf q, c.field ∉ names)
    (hb : ∀ data k, BlockOutsideFlow (.hash data) → BlockOutsideFlow (.hash (f data k (data.findIdx? (HashData.hasKey k))).2))
    (d : Document) (ha : ∀ y ∈ yamlItems d, BlockOutsideFlow y) {g : Yaml → Nat × Yaml}
    (hg : ∀ y ∈ yamlItems d, g y = Yaml.editHash f p y) :
    ((d.overItems g).2.findValues q).1 = (d.findValues q).1 := by
  rw [findValues_items, findValues_items, overItems_items, List.flatMap_map]
  simp only [List.flatMap]
  congr 1
  apply List.map_congr_left
  intro y hy
  rw [hg y hy, C23_find_is_lookup q _ (blockOutsideFlow_editHash f hb p y (ha y hy)), C23_find_is_lookup q y (ha y hy)]
  exact finds_frame hf hl hd hc y

theorem blockOutsideFlow_insert {h : AliasedYaml} (hh : BlockOutsideFlow h.value) (o : Bool) (data : List HashData) (k : Str)
    (hd : BlockOutsideFlow (.hash data)) :
    BlockOutsideFlow (.hash (insertClosure h o data k (data.findIdx? (HashData.hasKey k))).2) := by
  have hd' : ∀ k a v, HashData.element ⟨k, ⟨a, v⟩⟩ ∈ data → BlockOutsideFlow v := by
    cases hd with
    | flow h => cases h
    | hash h => exact h
  obtain ⟨ha, hv⟩ := h
  refine .hash fun k' a v hm => ?_
  rcases absent_or_first k data with hk | ⟨pre, w, post, rfl, hk⟩
  · have := run_insert_absent ⟨ha, hv⟩ o hk
    unfold Closure.run at this
    rw [this, List.mem_append] at hm
    rcases hm with hm | hm
    · exact hd' _ _ _ hm
    · simp only [List.mem_singleton, HashData.element.injEq, HashElement.mk.injEq, AliasedYaml.mk.injEq] at hm
      obtain ⟨-, -, rfl⟩ := hm
      exact hh
  · have := run_insert_present (v := w) (post := post) ⟨ha, hv⟩ o hk
    unfold Closure.run at this
    rw [this, List.mem_append, List.mem_cons] at hm
    rcases hm with hm | hm | hm
    · exact hd' _ _ _ (by simp only [List.mem_append]; exact .inl hm)
    · simp only [HashData.element.injEq, HashElement.mk.injEq] at hm
      cases o with
      | true =>
        simp only [if_true, AliasedYaml.mk.injEq] at hm
        obtain ⟨-, -, rfl⟩ := hm
        exact hh
      | false =>
        obtain ⟨aw, w⟩ := w
        simp only [Bool.false_eq_true, if_false, AliasedYaml.mk.injEq] at hm
        obtain ⟨-, -, rfl⟩ := hm
        exact hd' k aw v (by simp)
    · exact hd' _ _ _ (by simp only [List.mem_append, List.mem_cons]; exact .inr (.inr hm))

theorem blockOutsideFlow_remove (data : List HashData) (k : Str) (hd : BlockOutsideFlow (.hash data)) :
    BlockOutsideFlow (.hash (removeClosure data k (data.findIdx? (HashData.hasKey k))).2) := by
  have hd' : ∀ k a v, HashData.element ⟨k, ⟨a, v⟩⟩ ∈ data → BlockOutsideFlow v := by
    cases hd with
    | flow h => cases h
    | hash h => exact h
  refine .hash fun k' a v hm => ?_
  apply hd' k' a v
  unfold removeClosure at hm
  split at hm
  · exact List.mem_of_mem_eraseIdx hm
  · exact hm

/-- **C57.** An insert does not change what is found at a path that leads elsewhere: for every document without block
collections in flow collections (every parsed document), every value without such, with or without overwriting, and every
two paths that diverge, unless a condition of the second path is on the inserted key. -/
theorem C57_insert_elsewhere (d : Document) (p q : YamlPath) (k : Str) (h : AliasedYaml) (o : Bool) (hl : lastKey p = some k)
    (hd : Diverges [k] p q) (hc : ∀ c ∈ conditionsOf q, c.field ≠ k) (ha : ∀ y ∈ yamlItems d, BlockOutsideFlow y)
    (hh : BlockOutsideFlow h.value) : ((d.insertIntoHash p h o).2.findValues q).1 = (d.findValues q).1 :=
  find_frame (insert_frames h o k) hl hd (fun c hm => by simpa using hc c hm) (blockOutsideFlow_insert hh o) d ha
    fun _ _ => rfl

/-- **C57.** The same for a removal. -/
theorem C57_remove_elsewhere (d : Document) (p q : YamlPath) (k : Str) (hl : lastKey p = some k)
    (hd : Diverges [k] p q) (hc : ∀ c ∈ conditionsOf q, c.field ≠ k) (ha : ∀ y ∈ yamlItems d, BlockOutsideFlow y) :
    ((d.removeFromHash p).2.findValues q).1 = (d.findValues q).1 :=
  find_frame (remove_frames k) hl hd (fun c hm => by simpa using hc c hm) blockOutsideFlow_remove d ha fun _ _ => rfl

/-- **C57.** The same for a renaming: the second path leads neither to the old nor to the new name. -/
theorem C57_rename_elsewhere (d : Document) (p q : YamlPath) (k new : Str) (hl : lastKey p = some k)
    (hd : Diverges [k, new] p q) (hc : ∀ c ∈ conditionsOf q, c.field ≠ k ∧ c.field ≠ new)
    (ha : ∀ y ∈ yamlItems d, BlockOutsideFlow y) : ((d.renameField p new).2.findValues q).1 = (d.findValues q).1 :=
  find_frame (element_frames _ k new fun _ => rfl) hl hd (fun c hm => by simpa using hc c hm)
    (blockOutsideFlow_element _ fun _ h => h) d ha
    fun y hy => forHash_eq_editHash_block _ (fun _ h => h) p (by simp [hl]) y (ha y hy)

/-- **C57.** The same for wrapping a value. -/
theorem C57_to_object_elsewhere (d : Document) (p q : YamlPath) (k obj : Str) (hl : lastKey p = some k)
    (hd : Diverges [k] p q) (hc : ∀ c ∈ conditionsOf q, c.field ≠ k) (ha : ∀ y ∈ yamlItems d, BlockOutsideFlow y) :
    ((d.toObject p obj).2.findValues q).1 = (d.findValues q).1 := by
  have hw : ∀ e : HashElement, BlockOutsideFlow e.value.value →
      BlockOutsideFlow (Yaml.hash [.element ⟨obj, e.value⟩]) := by
    rintro ⟨k, ⟨a, v⟩⟩ h
    refine .hash fun k' a' v' hm => ?_
    simp only [List.mem_singleton, HashData.element.injEq, HashElement.mk.injEq, AliasedYaml.mk.injEq] at hm
    obtain ⟨-, -, rfl⟩ := hm
    exact h
  have hfr := element_frames (fun e => (1, (⟨e.key, ⟨none, .hash [.element ⟨obj, e.value⟩]⟩⟩ : HashElement))) k k fun _ => rfl
  have hfr' : Closure.Frames (elementClosure fun e => (1, (⟨e.key, ⟨none, .hash [.element ⟨obj, e.value⟩]⟩⟩ : HashElement))) k [k] :=
    fun ds k' hk => hfr ds k' (by simpa using hk)
  exact find_frame hfr' hl hd (fun c hm => by simpa using hc c hm)
    (blockOutsideFlow_element _ hw) d ha
    fun y hy => forHash_eq_editHash_block _ hw p (by simp [hl]) y (ha y hy)

/-! ### The hypotheses can be met, and are needed -/

/-- `jobs[0].size` and `jobs[*]|kind=x.kind` lead to different places … -/
example : Diverges [c!"size"] (.key c!"jobs" [] (some (.indexes [0] [] (some (.key c!"size" [] none)))))
    (.key c!"jobs" [] (some (.allIndexes [⟨c!"kind", c!"x"⟩] (some (.key c!"kind" [] none))))) :=
  .key (.someAll (.last (by decide)))

/-- … and the edit does change the document, and the second path finds something. -/
example : (jobsDoc.removeFromHash (.key c!"jobs" [] (some (.indexes [0] [] (some (.key c!"size" [] none)))))).1 = 1 ∧
    (jobsDoc.findValues (.key c!"jobs" [] (some (.allIndexes [⟨c!"kind", c!"x"⟩] (some (.key c!"kind" [] none)))))).1.length = 1 := by
  decide +kernel

/-- `jobs[0]` and `jobs[1]` lead to different places whatever follows. -/
example (p q : YamlPath) : Diverges [] (.key c!"jobs" [] (some (.indexes [0] [] (some p))))
    (.key c!"jobs" [] (some (.indexes [1] [] (some q)))) := .key (.indexes (by decide))

/-- **C57 (limit).** With a condition on the edited key, what the second path finds changes. -/
theorem C57_condition_counterexample :
    let p : YamlPath := .key c!"jobs" [] (some (.indexes [0] [] (some (.key c!"size" [] none))))
    let q : YamlPath := .key c!"jobs" [] (some (.allIndexes [⟨c!"size", c!"1"⟩] (some (.key c!"kind" [] none))))
    (jobsDoc.findValues q).1.length = 1 ∧ ((jobsDoc.removeFromHash p).2.findValues q).1.length = 0 := by
  decide +kernel

end YamlSubset
