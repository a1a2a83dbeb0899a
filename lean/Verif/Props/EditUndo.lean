import Verif.Lemmas.EditCompose
import Verif.Props.FindExact
import Verif.Lemmas.KernelRfl

/-! # Edits one after the other: undoing and overwriting (C56) -/

namespace YamlSubset

open Spec

/-! ## What the closures do to the data of a hash -/

theorem findIdx_absent {k : Str} {ds : List HashData} (h : k ∉ keysOf ds) : ds.findIdx? (HashData.hasKey k) = none := by
  cases hi : ds.findIdx? (HashData.hasKey k) with
  | none => rfl
  | some i =>
    obtain ⟨pre, v, post, hfe, rfl⟩ := findIdx_spec _ _ _ hi
    exact absurd (by rw [hfe.1]; simp [keysOf]) h

theorem absent_or_first (k : Str) (ds : List HashData) : k ∉ keysOf ds ∨ ∃ pre v post, FirstEntry k ds pre v post := by
  cases hi : ds.findIdx? (HashData.hasKey k) with
  | none => exact .inl (findIdx_none _ _ hi)
  | some i =>
    obtain ⟨pre, v, post, hfe, rfl⟩ := findIdx_spec _ _ _ hi
    exact .inr ⟨pre, v, post, hfe⟩

theorem run_insert_absent {k : Str} {ds : List HashData} (h : AliasedYaml) (o : Bool) (hk : k ∉ keysOf ds) :
    Closure.run (insertClosure h o) k ds = ds ++ [.element ⟨k, h⟩] := by
  simp only [Closure.run, findIdx_absent hk, insertClosure]

theorem run_insert_present {k : Str} {pre post : List HashData} {v : AliasedYaml} (h : AliasedYaml) (o : Bool)
    (hk : k ∉ keysOf pre) : Closure.run (insertClosure h o) k (pre ++ .element ⟨k, v⟩ :: post) =
      pre ++ .element ⟨k, if o then h else v⟩ :: post := by
  have hfe : FirstEntry k (pre ++ .element ⟨k, v⟩ :: post) pre v post := ⟨rfl, hk⟩
  simp only [Closure.run, hfe.findIdx, insertClosure]
  cases o <;> simp

theorem run_remove_absent {k : Str} {ds : List HashData} (hk : k ∉ keysOf ds) :
    Closure.run removeClosure k ds = ds := by
  simp only [Closure.run, findIdx_absent hk, removeClosure]

theorem run_remove_present {k : Str} {pre post : List HashData} {v : AliasedYaml} (hk : k ∉ keysOf pre) :
    Closure.run removeClosure k (pre ++ .element ⟨k, v⟩ :: post) = pre ++ post := by
  have hfe : FirstEntry k (pre ++ .element ⟨k, v⟩ :: post) pre v post := ⟨rfl, hk⟩
  simp only [Closure.run, hfe.findIdx, removeClosure]
  rw [List.eraseIdx_append_of_length_le (by simp)]
  simp

/-- The closure of `rename_field`. -/
def renameClosure (new : Str) : Closure := elementClosure fun e => (1, { e with key := new })

theorem run_rename_absent {k new : Str} {ds : List HashData} (hk : k ∉ keysOf ds) :
    Closure.run (renameClosure new) k ds = ds := by
  simp only [Closure.run, findIdx_absent hk, renameClosure, elementClosure]

theorem run_rename_present {k new : Str} {pre post : List HashData} {v : AliasedYaml} (hk : k ∉ keysOf pre) :
    Closure.run (renameClosure new) k (pre ++ .element ⟨k, v⟩ :: post) = pre ++ .element ⟨new, v⟩ :: post := by
  have hfe : FirstEntry k (pre ++ .element ⟨k, v⟩ :: post) pre v post := ⟨rfl, hk⟩
  simp only [Closure.run, hfe.findIdx, renameClosure, elementClosure, hfe.get]
  rw [set_append_length]

/-- The closure that changes nothing. -/
def keepClosure : Closure := fun ds _ _ => (0, ds)

theorem editHash_keep (path : YamlPath) (y : Yaml) : (Yaml.editHash keepClosure path y).2 = y := by
  induction path using lastKey.induct generalizing y with
  | case1 cs => rfl
  | case2 k cs =>
    cases y with
    | hash ds => simp only [Yaml.editHash]; split <;> rfl
    | _ => simp [editHash_key_other]
  | case3 k cs p ih =>
    cases y with
    | hash ds =>
      simp only [Yaml.editHash]
      split
      · simp only [Yaml.keyIndex]
        cases hi : ds.findIdx? (HashData.hasKey k) with
        | none => rfl
        | some i =>
          obtain ⟨pre, ⟨a, w⟩, post, hfe, rfl⟩ := findIdx_spec _ _ _ hi
          simp only [hfe.get, ih]
          rw [hfe.1, set_append_length]
      · rfl
    | _ => simp [editHash_key_other]
  | case4 cs => rfl
  | case5 cs p ih =>
    have hv : ∀ es : List Yaml, es.map (visitTree cs (Yaml.editHash keepClosure p)) = es := by
      intro es
      conv => rhs; rw [← List.map_id es]
      exact List.map_congr_left fun e _ => by simp [visitTree, ih]
    cases y with
    | inlineArray es => simp only [Yaml.editHash, overInline_snd, hv]
    | array ds => simp only [Yaml.editHash, overArray_values, overInline_snd, hv, setValues_self]
    | _ => rfl
  | case6 is cs => rfl
  | case7 is cs p ih =>
    have hv : ∀ es : List Yaml, is.foldl (fun es i => es.modify i (visitTree cs (Yaml.editHash keepClosure p))) es = es :=
      fun es => foldl_modify_fixed _ _ _ fun i _ e _ => by simp [visitTree, ih]
    cases y with
    | inlineArray es => simp only [Yaml.editHash, atInline_snd, hv]
    | array ds => simp only [Yaml.editHash, atArray_values, atInline_snd, hv, setValues_self]
    | _ => rfl

theorem overItems_keep (path : YamlPath) (d : Document) : (d.overItems (Yaml.editHash keepClosure path)).2 = d := by
  have key : ∀ (is : List DocumentData) c, (Document.overItems.go (Yaml.editHash keepClosure path) c is).2 = is := by
    intro is
    induction is with
    | nil => intro c; rfl
    | cons i t ih => intro c; cases i <;> simp only [Document.overItems.go, ih, editHash_keep]
  simp only [Document.overItems, key]

theorem overItems_no_key (f : Closure) (path : YamlPath) (hk : lastKey path = none) (d : Document) :
    (d.overItems (Yaml.editHash f path)).2 = d := by
  have key : ∀ (is : List DocumentData) c, (Document.overItems.go (Yaml.editHash f path) c is).2 = is := by
    intro is
    induction is with
    | nil => intro c; rfl
    | cons i t ih => intro c; cases i <;> simp only [Document.overItems.go, ih, editHash_no_key f path hk]
  simp only [Document.overItems, key]

/-! ## Conditions -/

theorem fits_append {cs : List Condition} {ds t : List HashData} (h : Fits cs (.hash ds)) : Fits cs (.hash (ds ++ t)) := by
  rw [fits_iff_keyValue] at h ⊢
  intro c hc
  obtain ⟨v, h1, h2⟩ := h c hc
  exact ⟨v, keyValueIn_append h1, h2⟩

theorem fits_replace {cs : List Condition} {k new : Str} {v v' : AliasedYaml} {pre post : List HashData}
    (hc : ∀ c ∈ cs, c.field ≠ k ∧ c.field ≠ new) (h : Fits cs (.hash (pre ++ .element ⟨k, v⟩ :: post))) :
    Fits cs (.hash (pre ++ .element ⟨new, v'⟩ :: post)) := by
  rw [fits_iff_keyValue] at h ⊢
  intro c hm
  obtain ⟨w, h1, h2⟩ := h c hm
  refine ⟨w, ?_, h2⟩
  rw [← h1]
  exact keyValueIn_other (hc c hm).1 (hc c hm).2

theorem fits_insert {cs : List Condition} {k : Str} {ds : List HashData} (h : AliasedYaml) (o : Bool)
    (hc : ∀ c ∈ cs, c.field ≠ k) (hf : Fits cs (.hash ds)) : Fits cs (.hash (Closure.run (insertClosure h o) k ds)) := by
  rcases absent_or_first k ds with hk | ⟨pre, v, post, rfl, hk⟩
  · rw [run_insert_absent h o hk]; exact fits_append hf
  · rw [run_insert_present h o hk]
    exact fits_replace (fun c hm => ⟨hc c hm, hc c hm⟩) hf

/-! ## What is not found is not there -/

/-- A flow collection that contains only flow collections contains no addressed hash. -/
theorem flow_not_addressed {path : YamlPath} {y : Yaml} {l : Loc} {k : Str} {ds : List HashData}
    (h : Addresses path y l k ds) : ¬ FlowOnly y := by
  induction h with
  | here _ => intro h; cases h
  | key _ _ _ _ => intro h; cases h
  | allArray _ _ _ _ => intro h; cases h
  | array _ _ _ _ _ _ => intro h; cases h
  | allInline hi _ _ ih =>
    intro h
    cases h with
    | inlineArray h => exact ih (h _ (List.mem_iff_getElem?.2 ⟨_, hi⟩))
  | inline _ hi _ _ ih =>
    intro h
    cases h with
    | inlineArray h => exact ih (h _ (List.mem_iff_getElem?.2 ⟨_, hi⟩))

theorem addresses_lookup {path : YamlPath} {y : Yaml} {l : Loc} {k new : Str} {ds : List HashData}
    (h : Addresses path y l k ds) (hb : BlockOutsideFlow y) (hn : new ∈ keysOf ds) :
    lookupBy selectBlock (endingIn new path) y ≠ [] := by
  induction h with
  | here hf =>
    rename_i ds
    rcases absent_or_first new ds with h | ⟨pre, v, post, hfe⟩
    · exact absurd hn h
    · simp [endingIn, lookupBy, hf, hfe.firstValue]
  | key hf hfe hp ih =>
    simp only [endingIn, lookupBy, hf, if_true, hfe.firstValue, Option.toList_some]
    simpa using ih (blockOutsideFlow_firstValue hb hfe.firstValue) hn
  | allArray hi hf hp ih =>
    rename_i v _ _ _
    simp only [endingIn, lookupBy, selectBlock, atIndexes, ne_eq, List.flatMap_eq_nil_iff, List.mem_filter, decide_eq_true_eq]
    have hm : v ∈ elementValues _ := List.mem_filterMap.2 ⟨_, List.mem_iff_getElem?.2 ⟨_, hi⟩, rfl⟩
    exact fun hnil => ih (blockOutsideFlow_elementValues hb hm) hn (hnil v ⟨hm, hf⟩)
  | allInline hi hf hp ih =>
    cases hb with
    | flow h => exact absurd h (flow_not_addressed (.allInline hi hf hp))
  | array hm hi hc hf hp ih =>
    rename_i is n cs p ds i a v l k ds'
    simp only [endingIn, lookupBy, selectBlock, atIndexes, ne_eq, List.flatMap_eq_nil_iff, List.mem_filter, decide_eq_true_eq,
      List.mem_filterMap]
    have hmem : v ∈ elementValues ds := List.mem_filterMap.2 ⟨_, List.mem_iff_getElem?.2 ⟨_, hi⟩, rfl⟩
    intro hnil
    refine ih (blockOutsideFlow_elementValues hb hmem) hn (hnil v ⟨⟨n, hm, ?_⟩, hf⟩)
    rw [← hc]
    clear hc hnil hb hmem
    induction ds generalizing i with
    | nil => cases hi
    | cons d t iht =>
      cases i with
      | zero => cases hi; rfl
      | succ i =>
        have := iht (i := i) (by simpa using hi)
        match d with
        | .element ⟨b, w⟩ => simpa [elementValues, elementCount] using this
        | .comment c => simpa [elementValues, elementCount] using this
        | .inlineComment c => simpa [elementValues, elementCount] using this
  | inline hm hi hf hp ih =>
    cases hb with
    | flow h => exact absurd h (flow_not_addressed (.inline hm hi hf hp))

theorem lastKey_endingIn {new last : Str} {path : YamlPath} (h : lastKey path = some last) :
    lastKey (endingIn new path) = some new := by
  induction path using lastKey.induct with
  | case1 cs => cases h
  | case2 k cs => rfl
  | case3 k cs p ih => exact ih h
  | case4 cs => cases h
  | case5 cs p ih => exact ih h
  | case6 is cs => cases h
  | case7 is cs p ih => exact ih h

/-- If `find_values` finds nothing under a name, no addressed hash has an entry with the name. -/
theorem absent_of_not_found {d : Document} {path : YamlPath} {new : Str} (ha : ∀ y ∈ yamlItems d, BlockOutsideFlow y)
    (hf : (d.findValues (endingIn new path)).1 = []) :
    ∀ y ∈ yamlItems d, ∀ l k ds, Addresses path y l k ds → new ∉ keysOf ds := by
  intro y hy l k ds h hn
  rw [findValues_items, List.flatMap_eq_nil_iff] at hf
  have := hf y hy
  rw [C23_find_is_lookup _ _ (ha y hy)] at this
  exact addresses_lookup h (ha y hy) hn this

theorem blockOutsideFlow_element (f : HashElement → Nat × HashElement)
    (hf : ∀ e : HashElement, BlockOutsideFlow e.value.value → BlockOutsideFlow (f e).2.value.value) (data : List HashData) (k : Str)
    (hd : BlockOutsideFlow (.hash data)) :
    BlockOutsideFlow (.hash (elementClosure f data k (data.findIdx? (HashData.hasKey k))).2) := by
  unfold elementClosure
  cases hi : data.findIdx? (HashData.hasKey k) with
  | none => exact hd
  | some i =>
    obtain ⟨pre, ⟨a, w⟩, post, hfe, rfl⟩ := findIdx_spec _ _ _ hi
    simp only [hfe.get]
    rw [hfe.1] at hd ⊢
    rw [set_append_length]
    cases hd with
    | flow h => cases h
    | hash h =>
      refine .hash fun k' a' v hv => ?_
      simp only [List.mem_append, List.mem_cons, HashData.element.injEq] at hv
      rcases hv with hv | hv | hv
      · exact h _ _ _ (by simp only [List.mem_append]; exact .inl hv)
      · have := hf ⟨k, ⟨a, w⟩⟩ (h k a w (by simp))
        rw [← hv] at this
        exact this
      · exact h _ _ _ (by simp only [List.mem_append, List.mem_cons]; exact .inr (.inr hv))

/-! ## C56 -/

/-- **C56.** Removing what was inserted restores the document exactly: for every path (with conditions, indexes and repeated
indexes), every value and with or without overwriting, when none of the hashes that the path addresses has an entry
with the last key. -/
theorem C56_insert_then_remove (d : Document) (path : YamlPath) (h : AliasedYaml) (o : Bool)
    (hn : ∀ y ∈ yamlItems d, ∀ l k ds, Addresses path y l k ds → k ∉ keysOf ds) :
    ((d.insertIntoHash path h o).2.removeFromHash path).2 = d := by
  unfold Document.insertIntoHash Document.removeFromHash Yaml.insertIntoHash Yaml.removeFromHash
  cases hl : lastKey path with
  | none => rw [overItems_no_key _ _ hl, overItems_no_key _ _ hl]
  | some last =>
    refine Eq.trans ?_ (overItems_keep path d)
    apply overItems_compose
    intro y hy
    have := editHash_compose (insertClosure h o) removeClosure keepClosure last path hl y ?_ ?_ ?_
    · rwa [endingIn_self hl] at this
    · intro l ds ha
      have hk := hn y hy l last ds ha
      rw [run_insert_absent h o hk, run_remove_present hk, List.append_nil]
      rfl
    · right
      intro cs _ l ds ha hf
      rw [run_insert_absent h o (hn y hy l last ds ha)]
      exact fits_append hf
    · right
      intro l ds ha
      have hk := hn y hy l last ds ha
      refine ⟨?_, rfl, run_remove_absent hk⟩
      unfold Closure.Idem
      rw [run_insert_absent h o hk, run_insert_present h o hk]
      simp

/-- **C56.** The same in terms of `find_values`, for documents without block collections in flow collections (every parsed
document): an insert at a path where nothing is found is undone by a removal. -/
theorem C56_insert_then_remove_not_found (d : Document) (path : YamlPath) (h : AliasedYaml) (o : Bool)
    (ha : ∀ y ∈ yamlItems d, BlockOutsideFlow y) (hf : (d.findValues path).1 = []) :
    ((d.insertIntoHash path h o).2.removeFromHash path).2 = d := by
  cases hl : lastKey path with
  | none =>
    unfold Document.insertIntoHash Document.removeFromHash Yaml.insertIntoHash Yaml.removeFromHash
    rw [overItems_no_key _ _ hl, overItems_no_key _ _ hl]
  | some last =>
    apply C56_insert_then_remove
    intro y hy l k ds had
    have hk : k = last := by
      have : lastKey path = some k := by
        clear hl hf ha hy
        induction had with
        | here => rfl
        | key _ _ _ ih => exact ih
        | allArray _ _ _ ih => exact ih
        | allInline _ _ _ ih => exact ih
        | array _ _ _ _ _ ih => exact ih
        | inline _ _ _ _ ih => exact ih
      rw [hl] at this
      exact (Option.some.inj this).symm
    subst hk
    exact absent_of_not_found (new := k) ha (by rwa [endingIn_self hl]) y hy l k ds had

/-- **C56.** Renaming back restores the document exactly: for every document without block collections in flow collections (every
parsed document) and every path that ends in a key, has no repeated index and no condition on that key, when nothing is found under
the new name. -/
theorem C56_rename_back (d : Document) (path : YamlPath) (old new : Str) (hl : lastKey path = some old) (hr : NoRepeats path)
    (ha : ∀ y ∈ yamlItems d, BlockOutsideFlow y) (hc : ∀ c ∈ conditionsOf path, c.field ≠ old)
    (hf : (d.findValues (endingIn new path)).1 = []) :
    ((d.renameField path new).2.renameField (endingIn new path) old).2 = d := by
  have hn := absent_of_not_found ha hf
  unfold Document.renameField Yaml.renameField
  refine Eq.trans ?_ (overItems_keep path d)
  apply overItems_compose
  intro y hy
  have hl' := lastKey_endingIn (new := new) hl
  have hb := blockOutsideFlow_editHash (renameClosure new) (fun data k => blockOutsideFlow_element _ (fun _ h => h) data k) path y
    (ha y hy)
  rw [forHash_eq_editHash_block _ (fun _ h => h) path (by simp [hl]) y (ha y hy)]
  unfold renameClosure at hb
  rw [forHash_eq_editHash_block _ (fun _ h => h) (endingIn new path) (by simp [hl']) _ hb]
  apply editHash_compose (renameClosure new) (renameClosure old) keepClosure new path hl y
  · intro l ds had
    have hk := hn y hy l old ds had
    rcases absent_or_first old ds with ho | ⟨pre, v, post, rfl, ho⟩
    · rw [run_rename_absent ho, run_rename_absent hk]; rfl
    · rw [run_rename_present ho, run_rename_present (by simp [keysOf] at hk ⊢; exact hk.1)]; rfl
  · right
    intro cs hcs l ds had hfit
    have hk := hn y hy l old ds had
    rcases absent_or_first old ds with ho | ⟨pre, v, post, rfl, ho⟩
    · rw [run_rename_absent ho]; exact hfit
    · rw [run_rename_present ho]
      refine fits_replace (fun c hm => ⟨hc c (hcs c hm), ?_⟩) hfit
      intro hnew
      obtain ⟨ds', pre', v', post', he, hfe, -⟩ := hfit c hm
      cases he
      rw [hfe.1] at hk
      apply hk
      simp [keysOf, hnew]
  · exact .inl hr

/-- **C56.** The last write wins: after two inserts with overwrite at the same path the document is as after the second one alone, for
every path that has no condition on its last key. -/
theorem C56_last_write_wins (d : Document) (path : YamlPath) (h h' : AliasedYaml)
    (hc : ∀ k, lastKey path = some k → ∀ c ∈ conditionsOf path, c.field ≠ k) :
    ((d.insertIntoHash path h true).2.insertIntoHash path h' true).2 = (d.insertIntoHash path h' true).2 := by
  unfold Document.insertIntoHash Yaml.insertIntoHash
  cases hl : lastKey path with
  | none => rw [overItems_no_key _ _ hl, overItems_no_key _ _ hl, overItems_no_key _ _ hl]
  | some last =>
    apply overItems_compose
    intro y hy
    have once : ∀ (g g' : AliasedYaml) ds, Closure.run (insertClosure g' true) last (Closure.run (insertClosure g true) last ds) =
        Closure.run (insertClosure g' true) last ds := by
      intro g g' ds
      rcases absent_or_first last ds with hk | ⟨pre, v, post, rfl, hk⟩
      · rw [run_insert_absent g true hk, run_insert_present g' true hk, run_insert_absent g' true hk]; rfl
      · rw [run_insert_present g true hk, run_insert_present g' true hk, run_insert_present g' true hk]
        rfl
    have := editHash_compose (insertClosure h true) (insertClosure h' true) (insertClosure h' true) last path hl y
      (fun l ds _ => once h h' ds)
      (.inr fun cs hcs l ds _ hf => fits_insert h true (fun c hm => hc last hl c (hcs c hm)) hf)
      (.inr fun l ds _ => ⟨once h h ds, once h' h' ds, once h' h' ds⟩)
    rwa [endingIn_self hl] at this

/-- **C56.** Overwriting can be undone: if the value at the path is `v` wherever the path applies, then inserting `v` after
inserting anything else restores the document, for every path that has no condition on its last key. -/
theorem C56_overwrite_back (d : Document) (path : YamlPath) (h v : AliasedYaml)
    (hc : ∀ k, lastKey path = some k → ∀ c ∈ conditionsOf path, c.field ≠ k)
    (hv : ∀ y ∈ yamlItems d, ∀ l k ds, Addresses path y l k ds → ∃ pre post, FirstEntry k ds pre v post) :
    ((d.insertIntoHash path h true).2.insertIntoHash path v true).2 = d := by
  rw [C56_last_write_wins d path h v hc]
  unfold Document.insertIntoHash Yaml.insertIntoHash
  cases hl : lastKey path with
  | none => rw [overItems_no_key _ _ hl]
  | some last =>
    have hk := overItems_keep path d
    refine Eq.trans ?_ hk
    conv => lhs; rw [← hk]
    apply overItems_compose
    intro y hy
    have hsame : ∀ l ds, Addresses path y l last ds → Closure.run (insertClosure v true) last ds = ds := by
      intro l ds had
      obtain ⟨pre, post, rfl, hp⟩ := hv y hy l last ds had
      rw [run_insert_present v true hp]
      rfl
    have := editHash_compose keepClosure (insertClosure v true) keepClosure last path hl y
      (fun l ds had => hsame l ds had) (.inl rfl)
      (.inr fun l ds had => ⟨rfl, rfl, hsame l ds had⟩)
    rwa [endingIn_self hl] at this

/-- **C56.** A removal makes a preceding insert at the same path irrelevant, whether or not the entry was there: for every path that
has no repeated index and no condition on its last key. -/
theorem C56_remove_forgets_insert (d : Document) (path : YamlPath) (h : AliasedYaml) (o : Bool) (hr : NoRepeats path)
    (hc : ∀ k, lastKey path = some k → ∀ c ∈ conditionsOf path, c.field ≠ k) :
    ((d.insertIntoHash path h o).2.removeFromHash path).2 = (d.removeFromHash path).2 := by
  unfold Document.insertIntoHash Document.removeFromHash Yaml.insertIntoHash Yaml.removeFromHash
  cases hl : lastKey path with
  | none => rw [overItems_no_key _ _ hl, overItems_no_key _ _ hl, overItems_no_key _ _ hl]
  | some last =>
    apply overItems_compose
    intro y hy
    have := editHash_compose (insertClosure h o) removeClosure removeClosure last path hl y ?_
      (.inr fun cs hcs l ds _ hf => fits_insert h o (fun c hm => hc last hl c (hcs c hm)) hf) (.inl hr)
    · rwa [endingIn_self hl] at this
    · intro l ds _
      rcases absent_or_first last ds with hk | ⟨pre, v, post, rfl, hk⟩
      · rw [run_insert_absent h o hk, run_remove_present hk, run_remove_absent hk, List.append_nil]
      · rw [run_insert_present h o hk, run_remove_present hk, run_remove_present hk]

/-! ### The hypotheses can be met, and are needed -/

/-- `jobs: [{kind: x, size: 1}, {kind: y}]` in block style, with a comment. -/
def jobsDoc : Document :=
  ⟨[], [.yaml (.hash [.element ⟨c!"jobs", ⟨none, .array
    [.comment c!" c", .element ⟨none, .hash [.element ⟨c!"kind", ⟨none, .unquotedString c!"x"⟩⟩, .element ⟨c!"size", ⟨none, .unquotedString c!"1"⟩⟩]⟩,
     .element ⟨none, .hash [.element ⟨c!"kind", ⟨none, .unquotedString c!"y"⟩⟩]⟩]⟩⟩])]⟩

/-- `jobs[][kind=y].k` for a key `k`. -/
def jobsPath (k : Str) : YamlPath := .key c!"jobs" [] (some (.allIndexes [⟨c!"kind", c!"y"⟩] (some (.key k [] none))))

theorem jobsDoc_parsed : parseYamlFile asciiTables c!"---\njobs:\n# c\n- kind: x\n  size: 1\n- kind: y\n" = .ok jobsDoc := by
  kernel_rfl

/-- An insert that is undone by a removal … -/
example : (jobsDoc.insertIntoHash (jobsPath c!"size") ⟨none, .unquotedString c!"2"⟩ false).1 = 1 ∧
    ((jobsDoc.insertIntoHash (jobsPath c!"size") ⟨none, .unquotedString c!"2"⟩ false).2.removeFromHash (jobsPath c!"size")).2 =
      jobsDoc :=
  ⟨by decide +kernel, C56_insert_then_remove_not_found _ _ _ _ (parsed_items jobsDoc_parsed) (by kernel_rfl)⟩

/-- … a renaming that is undone … -/
example : (jobsDoc.renameField (.key c!"jobs" [] none) c!"tasks").1 = 1 ∧
    ((jobsDoc.renameField (.key c!"jobs" [] none) c!"tasks").2.renameField (.key c!"tasks" [] none) c!"jobs").2 = jobsDoc :=
  ⟨by decide +kernel, C56_rename_back jobsDoc (.key c!"jobs" [] none) c!"jobs" c!"tasks" rfl trivial (parsed_items jobsDoc_parsed)
    (by simp [conditionsOf]) (by kernel_rfl)⟩

/-- … and a path with a condition that is not on its last key. -/
example : ∀ k, lastKey (jobsPath c!"size") = some k → ∀ c ∈ conditionsOf (jobsPath c!"size"), c.field ≠ k := by
  intro k hk c hc
  cases hk
  simp [jobsPath, conditionsOf] at hc
  subst hc
  decide

/-- `{b: 1, a: 2}` in block style. -/
def twoDoc : Document :=
  ⟨[], [.yaml (.hash [.element ⟨c!"b", ⟨none, .unquotedString c!"1"⟩⟩, .element ⟨c!"a", ⟨none, .unquotedString c!"2"⟩⟩])]⟩

/-- **C56 (limit).** An insert over an entry that is there is not undone by a removal. -/
theorem C56_insert_existing_counterexample :
    ((twoDoc.insertIntoHash (.key c!"a" [] none) ⟨none, .unquotedString c!"3"⟩ true).2.removeFromHash (.key c!"a" [] none)).2 ≠
      twoDoc := by
  intro h
  have := congrArg (fun d : Document => (d.findValues (.key c!"a" [] none)).1.length) h
  revert this
  decide +kernel

/-- **C56 (limit).** Renaming onto a name that is in use is not undone by renaming back: another entry gets the old
name. -/
theorem C56_rename_existing_counterexample :
    ((twoDoc.renameField (.key c!"a" [] none) c!"b").2.renameField (.key c!"b" [] none) c!"a").2 =
      ⟨[], [.yaml (.hash [.element ⟨c!"a", ⟨none, .unquotedString c!"1"⟩⟩,
        .element ⟨c!"b", ⟨none, .unquotedString c!"2"⟩⟩])]⟩ := by
  kernel_rfl

/-- **C56 (limit).** With a condition on the renamed key, the path does not apply any more after the renaming. -/
theorem C56_rename_condition_counterexample :
    let path : YamlPath := .key c!"a" [⟨c!"a", c!"2"⟩] none
    (twoDoc.renameField path c!"z").1 = 1 ∧
      ((twoDoc.renameField path c!"z").2.renameField (endingIn c!"z" path) c!"a").1 = 0 := by
  decide +kernel

end YamlSubset
