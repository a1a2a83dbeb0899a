import Verif.Spec.Move
import Verif.Spec.Path
import Verif.Props.Edit
import Verif.Props.Path

/-! # C26, C27: moving entries -/

namespace YamlSubset

open Spec

theorem parsePathUnwrap_key {k : Str} (hk : CleanKey k) : parsePathUnwrap k = .ok (.key k [] none) := by
  have := C13_rendered_paths_parse (steps := []) (cs := []) hk (by simp) (by simp) trivial
  simp only [renderPath, renderConditions, List.map_nil, List.flatten_nil, List.append_nil, pathOf] at this
  unfold parsePathUnwrap
  rw [this]

theorem firstIn_eq (k : Str) (ds : List HashData) : keyValueIn k ds = firstIn k ds := by
  induction ds with
  | nil => rfl
  | cons d t ih => cases d <;> simp [keyValueIn, firstIn, ih]

theorem firstIn_none {k : Str} {ds : List HashData} : firstIn k ds = none ↔ k ∉ keysOf ds := by
  induction ds with
  | nil => simp [firstIn, keysOf]
  | cons d t ih =>
    cases d with
    | element e =>
      simp only [firstIn, keysOf, List.filterMap_cons, List.mem_cons, not_or]
      by_cases h : e.key = k
      · simp [h]
      · simp only [h, if_false, ih, keysOf]
        exact ⟨fun h' => ⟨fun h'' => h h''.symm, h'⟩, fun h' => h'.2⟩
    | comment s => simpa [firstIn, keysOf] using ih
    | inlineComment s => simpa [firstIn, keysOf] using ih

theorem findIdx_none_of {k : Str} {ds : List HashData} (h : k ∉ keysOf ds) : ds.findIdx? (HashData.hasKey k) = none := by
  cases hi : ds.findIdx? (HashData.hasKey k) with
  | none => rfl
  | some i =>
    obtain ⟨pre, v, post, ⟨rfl, -⟩, -⟩ := findIdx_spec _ _ _ hi
    exact absurd (by simp [keysOf]) h

theorem first_or (k : Str) (ds : List HashData) : k ∉ keysOf ds ∨ ∃ pre v post, FirstEntry k ds pre v post := by
  cases h : firstIn k ds with
  | none => exact .inl (firstIn_none.1 h)
  | some v =>
    rw [← firstIn_eq] at h
    obtain ⟨pre, post, h⟩ := keyValueIn_spec _ _ _ h
    exact .inr ⟨pre, v, post, h⟩

theorem fits_no_condition (y : Yaml) : y.fitsConditions [] = true := rfl

theorem insert_new {k : Str} {ds : List HashData} (h : k ∉ keysOf ds) (v : AliasedYaml) (o : Bool) :
    Yaml.insertIntoHash (.key k [] none) v o (.hash ds) = (1, .hash (ds ++ [.element ⟨k, v⟩])) := by
  simp [Yaml.insertIntoHash, Yaml.editHash, fits_no_condition, Yaml.keyIndex, findIdx_none_of h, insertClosure]

theorem insert_old {k : Str} {ds pre post : List HashData} {w : AliasedYaml} (h : FirstEntry k ds pre w post) (v : AliasedYaml) :
    Yaml.insertIntoHash (.key k [] none) v true (.hash ds) = (1, .hash (pre ++ .element ⟨k, v⟩ :: post)) := by
  simp only [Yaml.insertIntoHash, Yaml.editHash, fits_no_condition, Yaml.keyIndex, h.findIdx, insertClosure, if_true]
  rw [h.1, set_append_length]

theorem remove_none {k : Str} {ds : List HashData} (h : k ∉ keysOf ds) :
    Yaml.removeFromHash (.key k [] none) (.hash ds) = (0, .hash ds) := by
  simp [Yaml.removeFromHash, Yaml.editHash, fits_no_condition, Yaml.keyIndex, findIdx_none_of h, removeClosure]

theorem remove_old {k : Str} {ds pre post : List HashData} {w : AliasedYaml} (h : FirstEntry k ds pre w post) :
    Yaml.removeFromHash (.key k [] none) (.hash ds) = (1, .hash (pre ++ post)) := by
  simp only [Yaml.removeFromHash, Yaml.editHash, fits_no_condition, Yaml.keyIndex, h.findIdx, removeClosure, if_true]
  rw [h.1, List.eraseIdx_append_of_length_le (Nat.le_refl _)]
  simp

/-! ## `dropFirst` and the others -/

theorem dropFirst_nil (ds : List HashData) : dropFirst [] ds = ds := by
  induction ds with
  | nil => rfl
  | cons d t ih => cases d <;> simp [dropFirst, ih]

theorem dropFirst_append_not {ks : List Str} {pre : List HashData} (h : ∀ k ∈ ks, k ∉ keysOf pre) (post : List HashData) :
    dropFirst ks (pre ++ post) = pre ++ dropFirst ks post := by
  induction pre with
  | nil => rfl
  | cons d t ih =>
    have ht : ∀ k ∈ ks, k ∉ keysOf t := by
      intro k hk hm
      refine h k hk ?_
      simp only [keysOf, List.mem_filterMap] at hm ⊢
      obtain ⟨x, hx, h'⟩ := hm
      exact ⟨x, by simp [hx], h'⟩
    cases d with
    | element e =>
      have : e.key ∉ ks := fun hm => h _ hm (by simp [keysOf])
      simp [dropFirst, this, ih ht]
    | comment s => simp [dropFirst, ih ht]
    | inlineComment s => simp [dropFirst, ih ht]

theorem dropFirst_not {ks : List Str} {ds : List HashData} (h : ∀ k ∈ ks, k ∉ keysOf ds) : dropFirst ks ds = ds := by
  have := dropFirst_append_not h []
  simpa [dropFirst] using this

theorem remove_eq (k : Str) (ds : List HashData) :
    (Yaml.removeFromHash (.key k [] none) (.hash ds)).2 = .hash (dropFirst [k] ds) := by
  rcases first_or k ds with h | ⟨pre, v, post, h⟩
  · rw [remove_none h, dropFirst_not (by simpa using h)]
  · rw [remove_old h, h.1, dropFirst_append_not (by simpa using h.2)]
    simp [dropFirst, dropFirst_nil]

theorem filter_singleton_ne {k e : Str} (h : e ≠ k) : [k].filter (fun x => decide (x ≠ e)) = [k] := by
  simp [List.filter_cons, Ne.symm h]

/-- One key, then the others. -/
theorem dropFirst_cons (k : Str) (ks : List Str) (hk : k ∉ ks) (ds : List HashData) :
    dropFirst ks (dropFirst [k] ds) = dropFirst (k :: ks) ds := by
  induction ds generalizing ks with
  | nil => rfl
  | cons d t ih =>
    cases d with
    | element e =>
      by_cases h : e.key = k
      · subst h
        have : ks.filter (fun x => decide (x ≠ e.key)) = ks :=
          List.filter_eq_self.2 (by intro a ha; simp; rintro rfl; exact hk ha)
        simp only [dropFirst, List.mem_cons, true_or, if_true, List.filter_cons, ne_eq, not_true_eq_false, decide_false]
        simp only [List.filter_nil, dropFirst_nil]
        have : ks.filter (fun x => !decide (x = e.key)) = ks := by simpa using this
        simp [this, dropFirst_nil]
      · have h1 : dropFirst [k] (.element e :: t) = .element e :: dropFirst [k] t := by simp [dropFirst, h]
        rw [h1]
        by_cases hm : e.key ∈ ks
        · have hc : e.key ∈ k :: ks := by simp [hm]
          simp only [dropFirst, hm, hc, if_true]
          rw [ih _ (fun h' => hk (List.mem_filter.1 h').1)]
          have : (k :: ks).filter (fun x => decide (x ≠ e.key)) = k :: ks.filter (fun x => decide (x ≠ e.key)) := by
            simp [List.filter_cons, Ne.symm h]
          rw [this]
        · have hc : e.key ∉ k :: ks := by simp [hm, h]
          simp only [dropFirst, hm, hc, if_false, ih ks hk]
    | comment s => simp [dropFirst, ih ks hk]
    | inlineComment s => simp [dropFirst, ih ks hk]

theorem removeFields_eq {ks : List Str} (hn : ks.Nodup) (hc : ∀ k ∈ ks, CleanKey k) (ds : List HashData) :
    removeFields ks (.hash ds) = .ok (.hash (dropFirst ks ds)) := by
  induction ks generalizing ds with
  | nil => simp [removeFields, dropFirst_nil]
  | cons k ks ih =>
    rw [List.nodup_cons] at hn
    rw [removeFields, parsePathUnwrap_key (hc k (by simp)), Out.bind_ok, remove_eq, ih hn.2 (fun k hk => hc k (by simp [hk])),
      dropFirst_cons _ _ hn.1]

/-- Keys that are not there do not matter. -/
theorem dropFirst_found {ks ks' : List Str} {ds : List HashData} (h : ∀ k, k ∈ keysOf ds → (k ∈ ks ↔ k ∈ ks')) :
    dropFirst ks ds = dropFirst ks' ds := by
  induction ds generalizing ks ks' with
  | nil => rfl
  | cons d t ih =>
    have ht : ∀ {x}, x ∈ keysOf t → x ∈ keysOf (d :: t) := by
      intro x hx
      simp only [keysOf, List.mem_filterMap] at hx ⊢
      obtain ⟨y, hy, h'⟩ := hx
      exact ⟨y, by simp [hy], h'⟩
    cases d with
    | element e =>
      have he := h e.key (by simp [keysOf])
      simp only [dropFirst]
      by_cases hm : e.key ∈ ks
      · rw [if_pos hm, if_pos (he.1 hm)]
        exact ih fun k hk => by simp [List.mem_filter, h k (ht hk)]
      · rw [if_neg hm, if_neg (fun h' => hm (he.2 h')), ih fun k hk => h k (ht hk)]
    | comment s => simp only [dropFirst, ih fun k hk => h k (ht hk)]
    | inlineComment s => simp only [dropFirst, ih fun k hk => h k (ht hk)]

theorem firstIn_append {k : Str} {ds ds' : List HashData} :
    firstIn k (ds ++ ds') = (firstIn k ds).or (firstIn k ds') := by
  induction ds with
  | nil => simp [firstIn]
  | cons d t ih => cases d <;> simp only [List.cons_append, firstIn, ih] <;> split <;> simp

theorem otherThan_append (ks : List Str) (ds ds' : List HashData) :
    otherThan ks (ds ++ ds') = otherThan ks ds ++ otherThan ks ds' := by
  induction ds with
  | nil => rfl
  | cons d t ih => cases d <;> simp only [List.cons_append, otherThan, ih] <;> split <;> simp

theorem put_new {k : Str} {v : AliasedYaml} {ds : List HashData} (h : k ∉ keysOf ds) : put k v ds = ds ++ [.element ⟨k, v⟩] := by
  induction ds with
  | nil => rfl
  | cons d t ih =>
    cases d with
    | element e =>
      simp only [keysOf, List.filterMap_cons, List.mem_cons, not_or] at h
      simp [put, Ne.symm h.1, ih h.2]
    | comment s => simp [put, ih (by simpa [keysOf] using h)]
    | inlineComment s => simp [put, ih (by simpa [keysOf] using h)]

theorem put_old {k : Str} {v w : AliasedYaml} {ds pre post : List HashData} (h : FirstEntry k ds pre w post) :
    put k v ds = pre ++ .element ⟨k, v⟩ :: post := by
  obtain ⟨rfl, h⟩ := h
  induction pre with
  | nil => simp [put]
  | cons d t ih =>
    cases d with
    | element e =>
      simp only [keysOf, List.filterMap_cons, List.mem_cons, not_or] at h
      simp [put, Ne.symm h.1, ih h.2]
    | comment s => simp [put, ih (by simpa [keysOf] using h)]
    | inlineComment s => simp [put, ih (by simpa [keysOf] using h)]

theorem insert_put (k : Str) (v : AliasedYaml) (ds : List HashData) :
    Yaml.insertIntoHash (.key k [] none) v true (.hash ds) = (1, .hash (put k v ds)) := by
  rcases first_or k ds with h | ⟨pre, w, post, h⟩
  · rw [insert_new h, put_new h]
  · rw [insert_old h, put_old h]

theorem firstIn_put (k : Str) (v : AliasedYaml) (j : Str) (ds : List HashData) :
    firstIn j (put k v ds) = if j = k then some v else firstIn j ds := by
  induction ds with
  | nil =>
    by_cases h : j = k
    · simp [put, firstIn, h]
    · simp [put, firstIn, h, Ne.symm h]
  | cons d t ih =>
    cases d with
    | element e =>
      by_cases he : e.key = k
      · by_cases h : j = k
        · simp [put, firstIn, he, h]
        · simp [put, firstIn, he, h, Ne.symm h]
      · simp only [put, he, if_false, firstIn, ih]
        by_cases h : j = k
        · simp [h, he]
        · simp [h]
    | comment s => simpa [put, firstIn] using ih
    | inlineComment s => simpa [put, firstIn] using ih

theorem firstIn_putAll_not {j : Str} {kvs : List (Str × AliasedYaml)} (h : j ∉ kvs.map Prod.fst) (ds : List HashData) :
    firstIn j (putAll kvs ds) = firstIn j ds := by
  induction kvs generalizing ds with
  | nil => rfl
  | cons kv t ih =>
    simp only [List.map_cons, List.mem_cons, not_or] at h
    show firstIn j (putAll t (put kv.1 kv.2 ds)) = _
    rw [ih h.2, firstIn_put, if_neg h.1]

theorem firstIn_putAll {j : Str} {v : AliasedYaml} {kvs : List (Str × AliasedYaml)} (hu : ∀ w, (j, w) ∈ kvs → w = v)
    (h : (j, v) ∈ kvs) (ds : List HashData) : firstIn j (putAll kvs ds) = some v := by
  induction kvs generalizing ds with
  | nil => simp at h
  | cons kv t ih =>
    obtain ⟨k, w⟩ := kv
    show firstIn j (putAll t (put k w ds)) = _
    by_cases ht : (j, v) ∈ t
    · exact ih (fun w hw => hu w (by simp [hw])) ht _
    · have : (j, v) = (k, w) := by
        rcases List.mem_cons.1 h with h | h
        · exact h
        · exact absurd h ht
      cases this
      rw [firstIn_putAll_not, firstIn_put, if_pos rfl]
      intro hj
      obtain ⟨⟨j', w⟩, hw, rfl⟩ := List.mem_map.1 hj
      cases hu w (by simp [hw])
      exact ht hw

theorem otherThan_put {k : Str} {ks : List Str} (hk : k ∈ ks) (v : AliasedYaml) (ds : List HashData) :
    otherThan ks (put k v ds) = otherThan ks ds := by
  rcases first_or k ds with h | ⟨pre, w, post, h⟩
  · rw [put_new h, otherThan_append]; simp [otherThan, hk]
  · rw [put_old h, h.1, otherThan_append, otherThan_append]; simp [otherThan, hk]

theorem otherThan_putAll {ks : List Str} {kvs : List (Str × AliasedYaml)} (h : ∀ k ∈ kvs.map Prod.fst, k ∈ ks) (ds : List HashData) :
    otherThan ks (putAll kvs ds) = otherThan ks ds := by
  induction kvs generalizing ds with
  | nil => rfl
  | cons kv t ih =>
    show otherThan ks (putAll t (put kv.1 kv.2 ds)) = _
    rw [ih (fun k hk => h k (by simp [hk])), otherThan_put (h _ (by simp))]

/-- The loop that puts the fields into an existing subfield. -/
theorem insertFields_eq {fields : List (Str × AliasedYaml)} (hc : ∀ kv ∈ fields, CleanKey kv.1) (sd : List HashData) :
    insertFields fields (.hash sd) = .ok (.hash (putAll fields sd)) := by
  induction fields generalizing sd with
  | nil => rfl
  | cons kv t ih =>
    rw [insertFields, parsePathUnwrap_key (hc _ (List.mem_cons_self ..)), Out.bind_ok, insert_put, ih fun kv hkv => hc kv (by simp [hkv])]
    rfl

theorem setKeyValue_eq {k : Str} {ds pre post : List HashData} {v : AliasedYaml} (h : FirstEntry k ds pre v post) (w : AliasedYaml) :
    setKeyValue k w ds = pre ++ .element ⟨k, w⟩ :: post := by
  obtain ⟨rfl, hp⟩ := h
  induction pre with
  | nil => simp [setKeyValue]
  | cons d t ih =>
    have ht : k ∉ keysOf t := fun hm => hp (by
      simp only [keysOf, List.mem_filterMap] at hm ⊢
      obtain ⟨y, hy, h'⟩ := hm
      exact ⟨y, by simp [hy], h'⟩)
    cases d with
    | element e =>
      have : e.key ≠ k := by rintro rfl; exact hp (by simp [keysOf])
      simp [setKeyValue, this, ih ht]
    | comment s => simp [setKeyValue, ih ht]
    | inlineComment s => simp [setKeyValue, ih ht]

theorem fieldsFound_eq (fields : List Str) (ds : List HashData) : fieldsFound (.hash ds) fields = foundFields fields ds := by
  simp only [fieldsFound, foundFields, Yaml.keyValue, firstIn_eq]

theorem mem_found {fields : List Str} {ds : List HashData} {k : Str} :
    k ∈ (foundFields fields ds).map Prod.fst ↔ k ∈ fields ∧ k ∈ keysOf ds := by
  simp only [foundFields, List.mem_map, List.mem_filterMap]
  constructor
  · rintro ⟨⟨k', v⟩, ⟨j, hj, h⟩, rfl⟩
    cases hf : firstIn j ds with
    | none => simp [hf] at h
    | some w =>
      simp only [hf, Option.map_some, Option.some.injEq, Prod.mk.injEq] at h
      obtain ⟨rfl, rfl⟩ := h
      refine ⟨hj, ?_⟩
      cases Classical.em (j ∈ keysOf ds) with
      | inl h => exact h
      | inr h => rw [firstIn_none.2 h] at hf; cases hf
  · rintro ⟨h1, h2⟩
    cases hf : firstIn k ds with
    | none => exact absurd h2 (firstIn_none.1 hf)
    | some w => exact ⟨(k, w), ⟨k, h1, by simp [hf]⟩, rfl⟩

theorem found_nodup {fields : List Str} (hn : fields.Nodup) (ds : List HashData) :
    ((foundFields fields ds).map Prod.fst).Nodup := by
  have : (foundFields fields ds).map Prod.fst = fields.filter fun k => (firstIn k ds).isSome := by
    unfold foundFields
    induction fields with
    | nil => rfl
    | cons k t ih =>
      rw [List.nodup_cons] at hn
      simp only [List.filterMap_cons, List.filter_cons]
      cases firstIn k ds <;> simp [ih hn.2]
  rw [this]
  exact hn.filter _

theorem keysOf_append (a b : List HashData) : keysOf (a ++ b) = keysOf a ++ keysOf b := by simp [keysOf]

/-! ## C26: moving fields into a subfield -/

/-- What the move does to one hash. -/
theorem moveToSubfieldAt_eq {sub : Str} {fields : List Str} {ds : List HashData} (hsub : CleanKey sub)
    (hf : ∀ k ∈ fields, CleanKey k) (hn : fields.Nodup) (hs : sub ∉ fields) (hu : Usable sub ds) :
    (foundFields fields ds = [] ∧ moveToSubfieldAt sub fields (.hash ds) = .ok (0, .hash ds)) ∨
    ∃ ds', moveToSubfieldAt sub fields (.hash ds) = .ok (1, .hash ds') ∧ MovedInto sub fields ds ds' := by
  simp only [moveToSubfieldAt, fieldsFound_eq]
  by_cases h0 : foundFields fields ds = []
  · exact .inl ⟨h0, by simp [h0]⟩
  · right
    have h0' : (foundFields fields ds).isEmpty = false := by simpa using h0
    simp only [h0', Bool.false_eq_true, if_false]
    have hfn := found_nodup hn ds
    have hfc : ∀ k ∈ (foundFields fields ds).map Prod.fst, CleanKey k := fun k hk => hf k (mem_found.1 hk).1
    rcases hu with hu | ⟨pre, a, sd, post, hu⟩
    · refine ⟨_, ?_, .new hu⟩
      have : putIntoSubfield sub (foundFields fields ds) ds =
          .ok (.hash (ds ++ [.element ⟨sub, ⟨none, .hash ((foundFields fields ds).map fun kv => .element ⟨kv.1, kv.2⟩)⟩⟩])) := by
        simp only [putIntoSubfield, firstIn_eq, firstIn_none.2 hu, parsePathUnwrap_key hsub, Out.bind_ok, insert_new hu]
      rw [this, Out.bind_ok, removeFields_eq hfn hfc, Out.bind_ok]
      congr 3
      have hk : ∀ k ∈ fields, k ≠ sub := by rintro k hk rfl; exact hs hk
      rw [dropFirst_found (ks' := fields)]
      · generalize (AliasedYaml.mk none (.hash ((foundFields fields ds).map fun kv => .element ⟨kv.1, kv.2⟩))) = v
        clear hfn hfc this h0 h0' hu hn hf
        induction ds generalizing fields with
        | nil => simp [dropFirst, hs]
        | cons d t ih =>
          cases d with
          | element e =>
            simp only [List.cons_append, dropFirst]
            split
            · exact ih (fun h => hs (List.mem_filter.1 h).1) fun k hk' => hk k (List.mem_filter.1 hk').1
            · simp [ih hs hk]
          | comment s => simp [dropFirst, ih hs hk]
          | inlineComment s => simp [dropFirst, ih hs hk]
      · intro k hk'
        rw [mem_found]
        rw [keysOf_append, List.mem_append] at hk'
        rcases hk' with h | h
        · simp [h]
        · have : k = sub := by simpa [keysOf] using h
          subst this
          simp [hs]
    · have h1 := insertFields_eq (fun kv hkv => hfc kv.1 (List.mem_map.2 ⟨kv, hkv, rfl⟩)) sd
      refine ⟨_, ?_, .existing hu⟩
      have : putIntoSubfield sub (foundFields fields ds) ds =
          .ok (.hash (pre ++ .element ⟨sub, ⟨a, .hash (putAll (foundFields fields ds) sd)⟩⟩ :: post)) := by
        simp only [putIntoSubfield, hu.keyValueIn, h1, Out.bind_ok, setKeyValue_eq hu]
      rw [this, Out.bind_ok, removeFields_eq hfn hfc, Out.bind_ok]
      congr 3
      refine dropFirst_found fun k hk => ?_
      rw [mem_found]
      have : k ∈ keysOf ds := by
        rw [hu.1]
        simp only [keysOf, List.filterMap_append, List.filterMap_cons] at hk ⊢
        exact hk
      simp [this]

/-- **C26.** Moving the fields of a block hash. -/
theorem C26_move_to_subfield {sub : Str} {fields : List Str} {ds : List HashData} (hsub : CleanKey sub)
    (hf : ∀ k ∈ fields, CleanKey k) (hn : fields.Nodup) (hs : sub ∉ fields) (hu : Usable sub ds) :
    ((∀ k ∈ fields, k ∉ keysOf ds) ∧ Yaml.moveToSubfield (.root []) sub fields (.hash ds) = (.ok 0, .hash ds)) ∨
    ∃ ds', Yaml.moveToSubfield (.root []) sub fields (.hash ds) = (.ok 1, .hash ds') ∧ MovedInto sub fields ds ds' := by
  have hr : Yaml.moveToSubfield (.root []) sub fields (.hash ds) =
      countedEdit (.hash ds) (moveToSubfieldAt sub fields (.hash ds)) := rfl
  rw [hr]
  rcases moveToSubfieldAt_eq hsub hf hn hs hu with ⟨h0, h⟩ | ⟨ds', h, hm⟩
  · refine .inl ⟨?_, by rw [h]; rfl⟩
    intro k hk hk'
    have := mem_found.2 ⟨hk, hk'⟩
    simp [h0] at this
  · exact .inr ⟨ds', by rw [h]; rfl, hm⟩

theorem insertFields_not_hash {fields : List (Str × AliasedYaml)} (hc : ∀ kv ∈ fields, CleanKey kv.1) {y : Yaml}
    (hy : ∀ ds, y ≠ .hash ds) : insertFields fields y = .ok y := by
  induction fields with
  | nil => rfl
  | cons kv t ih =>
    have : Yaml.insertIntoHash (.key kv.1 [] none) kv.2 true y = (0, y) := by
      cases y with
      | hash ds => exact absurd rfl (hy ds)
      | _ => rfl
    rw [insertFields, parsePathUnwrap_key (hc _ (List.mem_cons_self ..)), Out.bind_ok, this]
    exact ih fun kv hkv => hc kv (by simp [hkv])

/-- What the move does to a hash with a subfield that is not a block hash. -/
theorem moveToSubfieldAt_lost {sub : Str} {fields : List Str} {ds : List HashData}
    (hf : ∀ k ∈ fields, CleanKey k) (hn : fields.Nodup) (hu : ¬ Usable sub ds) :
    (foundFields fields ds = [] ∧ moveToSubfieldAt sub fields (.hash ds) = .ok (0, .hash ds)) ∨
    moveToSubfieldAt sub fields (.hash ds) = .ok (1, .hash (dropFirst fields ds)) := by
  simp only [moveToSubfieldAt, fieldsFound_eq]
  by_cases h0 : foundFields fields ds = []
  · exact .inl ⟨h0, by simp [h0]⟩
  · right
    have h0' : (foundFields fields ds).isEmpty = false := by simpa using h0
    simp only [h0', Bool.false_eq_true, if_false]
    have hfn := found_nodup hn ds
    have hfc : ∀ k ∈ (foundFields fields ds).map Prod.fst, CleanKey k := fun k hk => hf k (mem_found.1 hk).1
    rcases first_or sub ds with h | ⟨pre, ⟨a, v⟩, post, h⟩
    · exact absurd (.inl h) hu
    · have hv : ∀ sd, v ≠ .hash sd := fun sd hv => hu (.inr ⟨pre, a, sd, post, hv ▸ h⟩)
      have : putIntoSubfield sub (foundFields fields ds) ds = .ok (.hash ds) := by
        simp only [putIntoSubfield, h.keyValueIn, insertFields_not_hash (fun kv hkv => hfc kv.1 (List.mem_map.2 ⟨kv, hkv, rfl⟩)) hv,
          Out.bind_ok, setKeyValue_eq h]
        rw [← h.1]
      rw [this, Out.bind_ok, removeFields_eq hfn hfc, Out.bind_ok]
      congr 3
      refine dropFirst_found fun k hk => ?_
      rw [mem_found]
      simp [hk]

/-- **C26, everywhere.** In a document, for every path: if the move succeeds, it changed exactly as many hashes as it says, each of
them by moving the fields, if the subfield was usable there. If it was not, the fields are lost: they disappear, and nothing else
changes. -/
theorem C26_move_to_subfield_everywhere (d : Document) (path : YamlPath) {sub : Str} {fields : List Str} {n : Nat}
    (hsub : CleanKey sub) (hf : ∀ k ∈ fields, CleanKey k) (hn : fields.Nodup) (hs : sub ∉ fields)
    (h : (d.moveToSubfield path sub fields).1 = .ok n) :
    DocEdits (fun ds ds' => (Usable sub ds ∧ MovedInto sub fields ds ds') ∨ (¬ Usable sub ds ∧ ds' = dropFirst fields ds))
      n d (d.moveToSubfield path sub fields).2 := by
  have hg : EditsBy outCounting (fun ds ds' => (Usable sub ds ∧ MovedInto sub fields ds ds') ∨ (¬ Usable sub ds ∧ ds' = dropFirst fields ds))
      (Yaml.moveToSubfield path sub fields) := by
    intro v m hm
    obtain ⟨ls, hl, he⟩ := moveToSubfield_editsBy path sub fields v m hm
    refine ⟨ls, hl, he.mono fun ds ds' hmv => ?_⟩
    by_cases hu : Usable sub ds
    · rcases moveToSubfieldAt_eq hsub hf hn hs hu with ⟨-, h⟩ | ⟨ds'', h, hm⟩
      · rw [MovesToSubfield, h] at hmv; simp at hmv
      · rw [MovesToSubfield, h] at hmv
        simp only [Out.ok.injEq, Prod.mk.injEq, Yaml.hash.injEq, true_and] at hmv
        subst hmv
        exact .inl ⟨hu, hm⟩
    · rcases moveToSubfieldAt_lost hf hn hu with ⟨-, h⟩ | h
      · rw [MovesToSubfield, h] at hmv; simp at hmv
      · rw [MovesToSubfield, h] at hmv
        simp only [Out.ok.injEq, Prod.mk.injEq, Yaml.hash.injEq, true_and] at hmv
        exact .inr ⟨hu, hmv.symm⟩
  exact overItems_edits hg d n (by simp only [Document.moveToSubfield] at h; rw [h]; rfl)

/-! ### what the relation means for lookups -/

theorem firstIn_dropFirst_of_not {k : Str} {ks : List Str} (hk : k ∉ ks) (ds : List HashData) :
    firstIn k (dropFirst ks ds) = firstIn k ds := by
  induction ds generalizing ks with
  | nil => rfl
  | cons d t ih =>
    cases d with
    | element e =>
      simp only [dropFirst, firstIn]
      split
      · rename_i h
        have : e.key ≠ k := by rintro rfl; exact hk h
        rw [if_neg this, ih (fun h' => hk (List.mem_filter.1 h').1)]
      · simp only [firstIn, ih hk]
    | comment s => simp [dropFirst, firstIn, ih hk]
    | inlineComment s => simp [dropFirst, firstIn, ih hk]

theorem found_unique {fields : List Str} {ds : List HashData} {k : Str} {v : AliasedYaml} (hv : firstIn k ds = some v) :
    ∀ w, (k, w) ∈ foundFields fields ds → w = v := by
  intro w hw
  obtain ⟨j, -, hj⟩ := List.mem_filterMap.1 hw
  cases hf : firstIn j ds with
  | none => simp [hf] at hj
  | some u =>
    simp only [hf, Option.map_some, Option.some.injEq, Prod.mk.injEq] at hj
    obtain ⟨rfl, rfl⟩ := hj
    rw [hv] at hf
    exact (Option.some.inj hf).symm

/-- **C26, lookups.** After the move the subfield has every moved field, with its value; if it existed, it has its anchor and its
other fields, and its other entries and comments are in the same order; and every other field has the value it had. -/
theorem C26_lookup {sub : Str} {fields : List Str} {ds ds' : List HashData} (hs : sub ∉ fields) (h : MovedInto sub fields ds ds') :
    (∃ a sd', firstIn sub ds' = some ⟨a, .hash sd'⟩ ∧
      (∀ k v, k ∈ fields → firstIn k ds = some v → firstIn k sd' = some v) ∧
      ∀ b sd, firstIn sub ds = some ⟨b, .hash sd⟩ → a = b ∧ otherThan fields sd' = otherThan fields sd ∧
        ∀ k, k ∉ fields → firstIn k sd' = firstIn k sd) ∧
    ∀ k, k ∉ fields → k ≠ sub → firstIn k ds' = firstIn k ds := by
  have hfound : ∀ {k v}, k ∈ fields → firstIn k ds = some v → (k, v) ∈ foundFields fields ds := by
    intro k v hk hv
    exact List.mem_filterMap.2 ⟨k, hk, by simp [hv]⟩
  cases h with
  | @existing pre a sd post h =>
    refine ⟨⟨a, _, ?_, fun k v hk hv => firstIn_putAll (found_unique hv) (hfound hk hv) sd, ?_⟩, ?_⟩
    · rw [firstIn_dropFirst_of_not hs, firstIn_append, firstIn_none.2 h.2]; simp [firstIn]
    · intro b sd₀ h0
      rw [h.1, firstIn_append, firstIn_none.2 h.2] at h0
      simp only [firstIn, if_true, Option.none_or, Option.some.injEq, AliasedYaml.mk.injEq, Yaml.hash.injEq] at h0
      obtain ⟨rfl, rfl⟩ := h0
      exact ⟨rfl, otherThan_putAll (fun k hk => (mem_found.1 hk).1) _, fun k hk => firstIn_putAll_not (fun h => hk (mem_found.1 h).1) _⟩
    · intro k hk hks
      rw [firstIn_dropFirst_of_not hk, h.1, firstIn_append, firstIn_append]
      simp [firstIn, Ne.symm hks]
  | new h =>
    refine ⟨⟨none, (foundFields fields ds).map fun kv => .element ⟨kv.1, kv.2⟩, ?_, ?_, ?_⟩, ?_⟩
    · rw [firstIn_append, firstIn_dropFirst_of_not hs, firstIn_none.2 h]; simp [firstIn]
    · intro k v hk hv
      have hm := hfound hk hv
      have : ∀ (l : List (Str × AliasedYaml)), (∀ w, (k, w) ∈ l → w = v) → (k, v) ∈ l →
          firstIn k (l.map fun kv => .element ⟨kv.1, kv.2⟩) = some v := by
        intro l
        induction l with
        | nil => simp
        | cons kv t ih =>
          obtain ⟨j, w⟩ := kv
          intro hu hm
          simp only [List.map_cons, firstIn]
          split
          · rename_i hj
            subst hj
            rw [hu w (by simp)]
          · rename_i hj
            rcases List.mem_cons.1 hm with hm | hm
            · cases hm; exact absurd rfl hj
            · exact ih (fun w hw => hu w (by simp [hw])) hm
      exact this _ (found_unique hv) hm
    · intro b sd h0
      rw [firstIn_none.2 h] at h0
      cases h0
    · intro k hk hks
      rw [firstIn_append, firstIn_dropFirst_of_not hk]
      simp [firstIn, Ne.symm hks]

/-- The name is not a path. -/
def NoPath (k : Str) : Prop := ∀ p, YamlPath.parse k ≠ .ok p

theorem unwrap_ok {k : Str} {p : YamlPath} (h : YamlPath.parse k = .ok p) : parsePathUnwrap k = .ok p := by
  unfold parsePathUnwrap
  rw [h]

theorem unwrap_panic {k : Str} (h : NoPath k) : parsePathUnwrap k = .panic := by
  have ht := (C15_path_parsing_terminates k).1
  unfold NoPath at h
  unfold parsePathUnwrap
  generalize YamlPath.parse k = o at h ht
  cases o with
  | ok p => exact absurd rfl (h p)
  | oof => exact absurd rfl ht
  | _ => rfl

theorem path_or (k : Str) : (∃ p, YamlPath.parse k = .ok p) ∨ NoPath k := by
  by_cases h : ∃ p, YamlPath.parse k = .ok p
  · exact .inl h
  · exact .inr fun p hp => h ⟨p, hp⟩

theorem insertFields_panic {fields : List (Str × AliasedYaml)} (h : ∃ kv ∈ fields, NoPath kv.1) (y : Yaml) :
    insertFields fields y = .panic := by
  induction fields generalizing y with
  | nil => simp at h
  | cons kv t ih =>
    obtain ⟨k, v⟩ := kv
    rw [insertFields]
    rcases path_or k with ⟨p, hp⟩ | hp
    · rw [unwrap_ok hp, Out.bind_ok]
      refine ih ?_ _
      obtain ⟨kv, hm, h⟩ := h
      rcases List.mem_cons.1 hm with rfl | hm
      · exact absurd hp (h p)
      · exact ⟨kv, hm, h⟩
    · rw [unwrap_panic hp]; rfl

theorem removeFields_panic {fields : List Str} (h : ∃ k ∈ fields, NoPath k) (y : Yaml) :
    removeFields fields y = .panic := by
  induction fields generalizing y with
  | nil => simp at h
  | cons k t ih =>
    rw [removeFields]
    rcases path_or k with ⟨p, hp⟩ | hp
    · rw [unwrap_ok hp, Out.bind_ok]
      refine ih ?_ _
      obtain ⟨k', hm, h⟩ := h
      rcases List.mem_cons.1 hm with rfl | hm
      · exact absurd hp (h p)
      · exact ⟨k', hm, h⟩
    · rw [unwrap_panic hp]; rfl

theorem insertFields_ok {fields : List (Str × AliasedYaml)} (h : ∀ kv ∈ fields, ∃ p, YamlPath.parse kv.1 = .ok p) (y : Yaml) :
    ∃ y', insertFields fields y = .ok y' := by
  induction fields generalizing y with
  | nil => exact ⟨y, rfl⟩
  | cons kv t ih =>
    obtain ⟨p, hp⟩ := h kv (by simp)
    have := unwrap_ok hp
    obtain ⟨y', h'⟩ := ih (fun kv hkv => h kv (by simp [hkv])) (y.insertIntoHash p kv.2 true).2
    exact ⟨y', by rw [insertFields, this, Out.bind_ok, h']⟩

theorem removeFields_ok {fields : List Str} (h : ∀ k ∈ fields, ∃ p, YamlPath.parse k = .ok p) (y : Yaml) :
    ∃ y', removeFields fields y = .ok y' := by
  induction fields generalizing y with
  | nil => exact ⟨y, rfl⟩
  | cons k t ih =>
    obtain ⟨p, hp⟩ := h k (by simp)
    have := unwrap_ok hp
    obtain ⟨y', h'⟩ := ih (fun k hk => h k (by simp [hk])) (y.removeFromHash p).2
    exact ⟨y', by rw [removeFields, this, Out.bind_ok, h']⟩

/-- **C26, names that are not paths.** The move panics exactly if one of the fields exists and the name of an existing field, or of a
subfield that does not exist, is not a path; it never returns an error. -/
theorem C26_panics_iff {sub : Str} {fields : List Str} {ds : List HashData} :
    ((Yaml.moveToSubfield (.root []) sub fields (.hash ds)).1 = .panic ↔
      (∃ k ∈ fields, k ∈ keysOf ds) ∧ ((∃ k ∈ fields, k ∈ keysOf ds ∧ NoPath k) ∨ (sub ∉ keysOf ds ∧ NoPath sub))) ∧
    ((Yaml.moveToSubfield (.root []) sub fields (.hash ds)).1 = .panic ∨
      ∃ n, (Yaml.moveToSubfield (.root []) sub fields (.hash ds)).1 = .ok n) := by
  have hr : Yaml.moveToSubfield (.root []) sub fields (.hash ds) =
      countedEdit (.hash ds) (moveToSubfieldAt sub fields (.hash ds)) := rfl
  rw [hr]
  have hsome : (∃ k ∈ fields, k ∈ keysOf ds) ↔ foundFields fields ds ≠ [] := by
    constructor
    · rintro ⟨k, h1, h2⟩ h0
      have := mem_found.2 ⟨h1, h2⟩
      simp [h0] at this
    · intro h
      obtain ⟨⟨k, v⟩, hkv⟩ := List.exists_mem_of_ne_nil _ h
      exact ⟨k, mem_found.1 (List.mem_map.2 ⟨(k, v), hkv, rfl⟩)⟩
  simp only [moveToSubfieldAt, fieldsFound_eq]
  by_cases h0 : foundFields fields ds = []
  · simp only [h0, List.isEmpty_nil, if_true, countedEdit, hsome]
    exact ⟨⟨nofun, fun h => absurd rfl h.1⟩, .inr ⟨0, rfl⟩⟩
  · have h0' : (foundFields fields ds).isEmpty = false := by simpa using h0
    simp only [h0', Bool.false_eq_true, if_false]
    have hbad : (∃ k ∈ fields, k ∈ keysOf ds ∧ NoPath k) ↔ ∃ k ∈ (foundFields fields ds).map Prod.fst, NoPath k := by
      constructor
      · rintro ⟨k, h1, h2, h3⟩; exact ⟨k, mem_found.2 ⟨h1, h2⟩, h3⟩
      · rintro ⟨k, h1, h3⟩; exact ⟨k, (mem_found.1 h1).1, (mem_found.1 h1).2, h3⟩
    simp only [hsome, hbad, ne_eq, h0, not_false_eq_true, true_and]
    -- a name that is not a path
    by_cases hb : ∃ k ∈ (foundFields fields ds).map Prod.fst, NoPath k
    · have hp : ∀ o : Out Yaml, (o = .panic ∨ ∃ y, o = .ok y) → (o.bind fun y' =>
          (removeFields ((foundFields fields ds).map Prod.fst) y').bind fun y'' => Out.ok (1, y'')) = .panic := by
        rintro o (rfl | ⟨y, rfl⟩)
        · rfl
        · rw [Out.bind_ok, removeFields_panic hb]; rfl
      have hput : ∀ fs, putIntoSubfield sub fs ds = .panic ∨ ∃ y, putIntoSubfield sub fs ds = .ok y := by
        intro fs
        unfold putIntoSubfield
        split
        · rename_i v _
          by_cases h : ∃ kv ∈ fs, NoPath kv.1
          · rw [insertFields_panic h]; exact .inl rfl
          · have h' : ∀ kv ∈ fs, ∃ p, YamlPath.parse kv.1 = .ok p := fun kv hkv =>
              Classical.byContradiction fun hn => h ⟨kv, hkv, fun p hp => hn ⟨p, hp⟩⟩
            obtain ⟨y, hy⟩ := insertFields_ok h' v.value
            rw [hy]; exact .inr ⟨_, rfl⟩
        · rcases path_or sub with ⟨p, hp⟩ | hp
          · rw [unwrap_ok hp, Out.bind_ok]; exact .inr ⟨_, rfl⟩
          · rw [unwrap_panic hp]; exact .inl rfl
      rw [hp _ (hput _)]
      exact ⟨⟨fun _ => .inl hb, fun _ => rfl⟩, .inl rfl⟩
    · have hg : ∀ k ∈ (foundFields fields ds).map Prod.fst, ∃ p, YamlPath.parse k = .ok p := fun k hk =>
        Classical.byContradiction fun hn => hb ⟨k, hk, fun p hp => hn ⟨p, hp⟩⟩
      have hrem : ∀ y : Yaml, ∃ y'', ((removeFields ((foundFields fields ds).map Prod.fst) y).bind fun y'' => Out.ok (1, y'')) = .ok (1, y'') := by
        intro y
        obtain ⟨y', h'⟩ := removeFields_ok hg y
        exact ⟨y', by rw [h']; rfl⟩
      simp only [hb, false_or]
      unfold putIntoSubfield
      split
      · rename_i v hv
        have : sub ∈ keysOf ds := Classical.byContradiction fun h => by
          rw [firstIn_eq, firstIn_none.2 h] at hv; cases hv
        obtain ⟨y, hy⟩ := insertFields_ok (fun kv hkv => hg kv.1 (List.mem_map.2 ⟨kv, hkv, rfl⟩)) v.value
        obtain ⟨y'', h''⟩ := hrem (.hash (setKeyValue sub ⟨v.alias, y⟩ ds))
        rw [hy, Out.bind_ok, Out.bind_ok, h'']
        exact ⟨⟨nofun, fun h => absurd this h.1⟩, .inr ⟨1, rfl⟩⟩
      · rename_i hv
        have : sub ∉ keysOf ds := by rw [firstIn_eq] at hv; exact firstIn_none.1 hv
        rcases path_or sub with ⟨p, hp⟩ | hp
        · rw [unwrap_ok hp, Out.bind_ok, Out.bind_ok]
          obtain ⟨y'', h''⟩ := hrem (Yaml.insertIntoHash p ⟨none, .hash ((foundFields fields ds).map fun kv => .element ⟨kv.1, kv.2⟩)⟩ false (.hash ds)).2
          rw [h'']
          exact ⟨⟨nofun, fun h => absurd hp (h.2 p)⟩, .inr ⟨1, rfl⟩⟩
        · rw [unwrap_panic hp]
          exact ⟨⟨fun _ => ⟨this, hp⟩, fun _ => rfl⟩, .inl rfl⟩

/-- A field with a name that is not a path. -/
example : (Yaml.moveToSubfield (.root []) c!"s" [c!"a["] (.hash [.element ⟨c!"a[", ⟨none, .unquotedString c!"1"⟩⟩])).1 = .panic :=
  C26_panics_iff.1.2 ⟨⟨c!"a[", by simp, by decide +kernel⟩, .inl ⟨c!"a[", by simp, by decide +kernel, fun p h => by
    have : YamlPath.parse c!"a[" = .err := by kernel_rfl
    rw [this] at h; cases h⟩⟩

/-- A hash with comments and other entries, a subfield that exists. -/
example : Yaml.moveToSubfield (.root []) c!"s" [c!"a", c!"x", c!"b"]
      (.hash [.comment c!"1", .element ⟨c!"b", ⟨some c!"k", .unquotedString c!"2"⟩⟩, .element ⟨c!"s", ⟨some c!"y", .hash [.comment c!"3",
        .element ⟨c!"a", ⟨none, .unquotedString c!"4"⟩⟩]⟩⟩, .element ⟨c!"c", ⟨none, .unquotedString c!"5"⟩⟩,
        .element ⟨c!"a", ⟨none, .unquotedString c!"6"⟩⟩]) =
    (.ok 1, .hash [.comment c!"1", .element ⟨c!"s", ⟨some c!"y", .hash [.comment c!"3",
        .element ⟨c!"a", ⟨none, .unquotedString c!"6"⟩⟩, .element ⟨c!"b", ⟨some c!"k", .unquotedString c!"2"⟩⟩]⟩⟩,
        .element ⟨c!"c", ⟨none, .unquotedString c!"5"⟩⟩]) := by kernel_rfl

/-- Counterexample to C26: a subfield that is not a block hash; the field is lost. -/
theorem C26_counterexample_not_a_hash :
    Yaml.moveToSubfield (.root []) c!"s" [c!"a"]
      (.hash [.element ⟨c!"a", ⟨none, .unquotedString c!"1"⟩⟩, .element ⟨c!"s", ⟨none, .inlineHash []⟩⟩]) =
    (.ok 1, .hash [.element ⟨c!"s", ⟨none, .inlineHash []⟩⟩]) := by kernel_rfl

/-- Counterexample to C26: a subfield that is moved into itself; everything is lost. -/
theorem C26_counterexample_itself :
    Yaml.moveToSubfield (.root []) c!"s" [c!"s"]
      (.hash [.element ⟨c!"s", ⟨none, .hash [.element ⟨c!"a", ⟨none, .unquotedString c!"1"⟩⟩]⟩⟩]) =
    (.ok 1, .hash []) := by kernel_rfl

/-- Counterexample to C26: a name with a dot is read as a path; the field stays where it is too. -/
theorem C26_counterexample_dotted_name :
    Yaml.moveToSubfield (.root []) c!"s" [c!"a.b"]
      (.hash [.element ⟨c!"a.b", ⟨none, .unquotedString c!"1"⟩⟩]) =
    (.ok 1, .hash [.element ⟨c!"a.b", ⟨none, .unquotedString c!"1"⟩⟩,
      .element ⟨c!"s", ⟨none, .hash [.element ⟨c!"a.b", ⟨none, .unquotedString c!"1"⟩⟩]⟩⟩]) := by kernel_rfl

/-! ## C27: regrouping a map -/

theorem strLt_iff (s t : Str) : strLt s t = true ↔ Less s t := by
  unfold Less
  induction s generalizing t with
  | nil => cases t <;> simp [strLt]
  | cons a s ih =>
    cases t with
    | nil => simp [strLt]
    | cons b t =>
      simp only [strLt, Bool.or_eq_true, decide_eq_true_eq, Bool.and_eq_true, beq_iff_eq, List.map_cons, List.cons_lt_cons_iff, ih]
      constructor
      · rintro (h | ⟨rfl, h⟩)
        · exact .inl h
        · exact .inr ⟨rfl, h⟩
      · rintro (h | ⟨h, h'⟩)
        · exact .inl h
        · exact .inr ⟨Char.toNat_inj.1 h, h'⟩

theorem less_trans {s t u : Str} (h : Less s t) (h' : Less t u) : Less s u := List.lt_trans h h'

theorem less_irrefl (s : Str) : ¬ Less s s := List.lt_irrefl _

theorem less_total {s t : Str} (hne : s ≠ t) (h : ¬ Less s t) : Less t s := by
  rw [← strLt_iff] at h ⊢
  induction s generalizing t with
  | nil => cases t <;> simp_all [strLt]
  | cons a s ih =>
    cases t with
    | nil => simp [strLt]
    | cons b t =>
      simp only [strLt, Bool.or_eq_true, decide_eq_true_eq, Bool.and_eq_true, beq_iff_eq, not_or, not_and] at h ⊢
      by_cases hab : a = b
      · subst hab
        exact .inr ⟨rfl, ih (fun h' => hne (by rw [h'])) (h.2 rfl)⟩
      · have : a.toNat ≠ b.toNat := fun h' => hab (Char.toNat_inj.1 h')
        exact .inl (by omega)

/-- The items of a group. -/
def look (s : Str) : GroupMap → List HashData
  | [] => []
  | (k, l) :: t => if k = s then l else look s t

def names (m : GroupMap) : List Str := m.map Prod.fst

theorem look_not {s : Str} {m : GroupMap} (h : s ∉ names m) : look s m = [] := by
  induction m with
  | nil => rfl
  | cons kl t ih =>
    obtain ⟨k, l⟩ := kl
    simp only [names, List.map_cons, List.mem_cons, not_or] at h
    simp only [look, if_neg (Ne.symm h.1)]
    exact ih h.2

theorem names_extend (k : Str) (items : List HashData) (m : GroupMap) (s : Str) :
    s ∈ names (m.extend k items) ↔ s = k ∨ s ∈ names m := by
  induction m with
  | nil => simp [GroupMap.extend, names]
  | cons kl t ih =>
    obtain ⟨k', l⟩ := kl
    simp only [GroupMap.extend]
    split
    · rename_i h; subst h; simp [names]
    · split
      · simp [names]
      · simp only [names, List.map_cons, List.mem_cons] at ih ⊢
        rw [ih]
        constructor
        · rintro (h | h | h) <;> simp [h]
        · rintro (h | h | h) <;> simp [h]

theorem extend_sorted {k : Str} {items : List HashData} {m : GroupMap} (h : (names m).Pairwise Less) :
    (names (m.extend k items)).Pairwise Less := by
  induction m with
  | nil => simp [GroupMap.extend, names]
  | cons kl t ih =>
    obtain ⟨k', l⟩ := kl
    simp only [names, List.map_cons, List.pairwise_cons] at h
    simp only [GroupMap.extend]
    split
    · simpa [names] using h
    · rename_i hne
      split
      · rename_i hlt
        rw [strLt_iff] at hlt
        simp only [names, List.map_cons, List.pairwise_cons]
        refine ⟨?_, h⟩
        intro a ha
        rcases List.mem_cons.1 ha with rfl | ha
        · exact hlt
        · exact less_trans hlt (h.1 a ha)
      · rename_i hlt
        rw [strLt_iff] at hlt
        have hlt' := less_total hne hlt
        show (k' :: names (GroupMap.extend k items t)).Pairwise Less
        refine List.pairwise_cons.2 ⟨?_, ih h.2⟩
        intro a ha
        rcases (names_extend ..).1 ha with rfl | ha
        · exact hlt'
        · exact h.1 a ha

theorem look_extend {k : Str} {items : List HashData} {m : GroupMap} (h : (names m).Pairwise Less) (s : Str) :
    look s (m.extend k items) = look s m ++ if s = k then items else [] := by
  induction m with
  | nil =>
    simp only [GroupMap.extend, look, List.nil_append]
    by_cases hs : s = k
    · simp [hs]
    · simp [hs, Ne.symm hs]
  | cons kl t ih =>
    obtain ⟨k', l⟩ := kl
    simp only [names, List.map_cons, List.pairwise_cons] at h
    simp only [GroupMap.extend]
    split
    · rename_i hk
      subst hk
      by_cases hs : s = k
      · subst hs; simp [look]
      · simp [look, hs, Ne.symm hs]
    · rename_i hne
      split
      · rename_i hlt
        rw [strLt_iff] at hlt
        by_cases hs : s = k
        · subst hs
          have h1 : look s t = [] := look_not fun hm => less_irrefl _ (less_trans (h.1 s hm) hlt)
          simp [look, Ne.symm hne, h1]
        · simp [look, hs, Ne.symm hs]
      · simp only [look]
        split
        · rename_i hs
          have : s ≠ k := by rintro rfl; exact hne hs.symm
          simp [this]
        · exact ih h.2

/-- The items that go to `g`, after an entry of the group `last`. -/
def itemsFrom (sel : Str) (keeps : List Str) (last : Option Str) (od : List HashData) (g : Option Str) : List HashData :=
  (groups sel keeps last od).filterMap fun x => if x.1 = g then some (strip sel x.2) else none

/-- Pending comments go to one group. -/
def only (g h : Option Str) (cs : List HashData) : List HashData := if g = h then cs else []

theorem selector_eq (sel : Str) (e : HashElement) :
    ((e.value.value.keyValue sel).bind fun key => key.value.asString) = selectorText sel e := by
  unfold selectorText
  cases e.value.value <;> simp [Yaml.keyValue, firstIn_eq]

theorem strip_eq {sel s : Str} {e : HashElement} (h : selectorText sel e = some s) :
    HashData.element ⟨e.key, ⟨e.value.alias, (e.value.value.removeFromHash (.key sel [] none)).2⟩⟩ = strip sel (.element e) := by
  obtain ⟨k, a, v⟩ := e
  cases v with
  | hash ds => simp [strip, h, remove_eq]
  | _ => simp [selectorText] at h

theorem strip_none {sel : Str} {e : HashElement} (h : selectorText sel e = none) : strip sel (.element e) = .element e := by
  obtain ⟨k, a, v⟩ := e
  cases v <;> simp [strip, h]

theorem only_nil (g h : Option Str) : only g h [] = [] := by simp [only]

theorem only_append (g h : Option Str) (a b : List HashData) : only g h (a ++ b) = only g h a ++ only g h b := by
  simp only [only]; split <;> simp

/-- What the loop gives in the end. -/
abbrev Loops (sel : Str) (keeps : List Str) (od : List HashData) (st : MoveState) : Prop :=
  ∃ st', moveToMapLoop sel keeps od st = .ok st' ∧ (names (moveToMapFinish st').1).Pairwise Less ∧
    (∀ s, s ∈ names (moveToMapFinish st').1 ↔ s ∈ names st.newHashes ∨
      ∃ k v, HashData.element ⟨k, v⟩ ∈ od ∧ groupOf sel keeps ⟨k, v⟩ = some s) ∧
    (moveToMapFinish st').2 = st.oldHashes ++ only (nextGroup sel keeps st.lastAddedTo od) none st.comments ++
      itemsFrom sel keeps st.lastAddedTo od none ∧
    ∀ s, look s (moveToMapFinish st').1 = look s st.newHashes ++
      only (nextGroup sel keeps st.lastAddedTo od) (some s) st.comments ++ itemsFrom sel keeps st.lastAddedTo od (some s)

/-- The whole loop. -/
theorem moveToMapLoop_eq {sel : Str} (hsel : CleanKey sel) (keeps : List Str) (od : List HashData) (st : MoveState)
    (hs : (names st.newHashes).Pairwise Less) (hl : ∀ s, st.lastAddedTo = some s → s ∈ names st.newHashes) :
    Loops sel keeps od st := by
  induction od generalizing st with
  | nil =>
    refine ⟨st, rfl, ?_⟩
    simp only [moveToMapFinish, nextGroup, itemsFrom, groups, List.filterMap_nil, List.append_nil, List.not_mem_nil, false_and,
      exists_false, or_false]
    cases hla : st.lastAddedTo with
    | none => simp [only, hs]
    | some s =>
      refine ⟨extend_sorted hs, fun t => ?_, by simp [only], fun t => ?_⟩
      · rw [names_extend]
        constructor
        · rintro (rfl | h)
          · exact hl _ hla
          · exact h
        · exact .inr
      · rw [look_extend hs]
        simp only [only, Option.some.injEq]
        by_cases h : t = s
        · simp [h]
        · simp [h, Ne.symm h]
  | cons d t ih =>
    have hcomment : ∀ c, (∀ e, c ≠ HashData.element e) → d = c → strip sel c = c →
        (∀ last, nextGroup sel keeps last (c :: t) = nextGroup sel keeps last t) →
        (∀ last, groups sel keeps last (c :: t) = (nextGroup sel keeps last t, c) :: groups sel keeps last t) →
        moveToMapStep sel keeps st c = .ok { st with comments := st.comments ++ [c] } →
        Loops sel keeps (d :: t) st := by
      intro c hne hd hst hnext hgr hstep
      obtain ⟨st', h1, h2, h3, h4, h5⟩ := ih { st with comments := st.comments ++ [c] } hs hl
      have key : ∀ g, only (nextGroup sel keeps st.lastAddedTo t) g (st.comments ++ [c]) ++ itemsFrom sel keeps st.lastAddedTo t g =
          only (nextGroup sel keeps st.lastAddedTo (c :: t)) g st.comments ++ itemsFrom sel keeps st.lastAddedTo (c :: t) g := by
        intro g
        rw [only_append, hnext, itemsFrom, itemsFrom, hgr]
        simp only [only, List.filterMap_cons, hst]
        split <;> simp_all
      refine ⟨st', ?_, h2, ?_, ?_, ?_⟩
      · rw [hd, moveToMapLoop, hstep, Out.bind_ok, h1]
      · intro s
        rw [h3, hd]
        simp only [List.mem_cons]
        constructor
        · rintro (h | ⟨k, v, h, h'⟩)
          · exact .inl h
          · exact .inr ⟨k, v, .inr h, h'⟩
        · rintro (h | ⟨k, v, h | h, h'⟩)
          · exact .inl h
          · exact absurd h.symm (hne _)
          · exact .inr ⟨k, v, h, h'⟩
      · rw [h4, hd, List.append_assoc, List.append_assoc, key]
      · intro s
        rw [h5, hd, List.append_assoc, List.append_assoc, key]
    cases d with
    | comment s => exact hcomment (.comment s) (by nofun) rfl rfl (fun _ => rfl) (fun _ => rfl) rfl
    | inlineComment s => exact hcomment (.inlineComment s) (by nofun) rfl rfl (fun _ => rfl) (fun _ => rfl) rfl
    | element e =>
      have hgo : ∀ last g, itemsFrom sel keeps last (.element e :: t) g =
          only (groupOf sel keeps e) g [strip sel (.element e)] ++ itemsFrom sel keeps (groupOf sel keeps e) t g := by
        intro last g
        simp only [itemsFrom, groups, List.filterMap_cons, only]
        split <;> simp_all
      have hmem : ∀ s, (∃ k v, HashData.element ⟨k, v⟩ ∈ HashData.element e :: t ∧ groupOf sel keeps ⟨k, v⟩ = some s) ↔
          groupOf sel keeps e = some s ∨ ∃ k v, HashData.element ⟨k, v⟩ ∈ t ∧ groupOf sel keeps ⟨k, v⟩ = some s := by
        intro s
        simp only [List.mem_cons]
        constructor
        · rintro ⟨k, v, h | h, h'⟩
          · cases h; exact .inl h'
          · exact .inr ⟨k, v, h, h'⟩
        · rintro (h | ⟨k, v, h, h'⟩)
          · obtain ⟨k, v⟩ := e; exact ⟨k, v, .inl rfl, h⟩
          · exact ⟨k, v, .inr h, h'⟩
      -- what one step does
      have hstep : moveToMapStep sel keeps st (.element e) = .ok
          (match groupOf sel keeps e with
          | none => { st with oldHashes := st.oldHashes ++ st.comments ++ [strip sel (.element e)], comments := [], lastAddedTo := none }
          | some s => { st with newHashes := st.newHashes.extend s (st.comments ++ [strip sel (.element e)]), comments := [],
                                lastAddedTo := some s }) := by
        simp only [moveToMapStep, selector_eq]
        unfold groupOf
        cases hs : selectorText sel e with
        | none => simp [strip_none hs]
        | some s =>
          simp only [parsePathUnwrap_key hsel, Out.bind_ok, strip_eq hs]
          by_cases hk : s ∈ keeps ∨ s = []
          · have : (keeps.contains s || s.isEmpty) = true := by simpa using hk
            simp [hk, this]
          · have : (keeps.contains s || s.isEmpty) = false := by
              simp only [not_or] at hk
              simp [hk.1, hk.2]
            simp only [this, if_neg hk]
            simp
      unfold Loops
      rw [moveToMapLoop, hstep, Out.bind_ok]
      simp only [nextGroup, hgo, hmem]
      cases hg : groupOf sel keeps e with
      | none =>
        obtain ⟨st', h1, h2, h3, h4, h5⟩ := ih { st with oldHashes := st.oldHashes ++ st.comments ++ [strip sel (.element e)], comments := [], lastAddedTo := none } hs (by nofun)
        refine ⟨st', h1, h2, ?_, ?_, ?_⟩
        · intro s; rw [h3]; simp
        · rw [h4]; simp [only]
        · intro s; rw [h5]; simp [only]
      | some g =>
        obtain ⟨st', h1, h2, h3, h4, h5⟩ := ih { st with newHashes := st.newHashes.extend g (st.comments ++ [strip sel (.element e)]), comments := [], lastAddedTo := some g }
          (extend_sorted hs) (by rintro s ⟨⟩; exact (names_extend ..).2 (.inl rfl))
        refine ⟨st', h1, h2, ?_, ?_, ?_⟩
        · intro s
          rw [h3, names_extend]
          simp only [Option.some.injEq]
          constructor
          · rintro ((rfl | h) | h)
            · exact .inr (.inl rfl)
            · exact .inl h
            · exact .inr (.inr h)
          · rintro (h | rfl | h)
            · exact .inl (.inr h)
            · exact .inl (.inl rfl)
            · exact .inr h
        · rw [h4]; simp [only]
        · intro s
          rw [h5, look_extend hs]
          simp only [only, Option.some.injEq]
          by_cases h : s = g
          · simp [h]
          · simp [h, Ne.symm h]

/-- The groups in the form of the specification. -/
theorem groups_map {m : GroupMap} (h : (names m).Pairwise Less) {f : Str → List HashData} (hf : ∀ s, look s m = f s) :
    (m.map fun kv => HashData.element ⟨kv.1, ⟨none, .hash kv.2⟩⟩) =
      (names m).map fun g => .element ⟨g, ⟨none, .hash (f g)⟩⟩ := by
  have : ∀ kv ∈ m, kv.2 = look kv.1 m := by
    clear hf
    induction m with
    | nil => simp
    | cons kl t ih =>
      obtain ⟨k, l⟩ := kl
      simp only [names, List.map_cons, List.pairwise_cons] at h
      intro kv hkv
      rcases List.mem_cons.1 hkv with rfl | hkv'
      · simp [look]
      · have : k ≠ kv.1 := by
          rintro rfl
          exact less_irrefl _ (h.1 _ (List.mem_map.2 ⟨kv, hkv', rfl⟩))
        simp only [look, if_neg this]
        exact ih h.2 kv hkv'
  simp only [names, List.map_map]
  apply List.map_congr_left
  intro kv hkv
  simp only [Function.comp, ← hf, this kv hkv]

theorem FirstEntry.value_unique {k : Str} {ds pre post pre' post' : List HashData} {v v' : AliasedYaml}
    (h : FirstEntry k ds pre v post) (h' : FirstEntry k ds pre' v' post') : v = v' := by
  have e : ∀ {pre v post}, FirstEntry k ds pre v post → firstIn k ds = some v := by
    intro pre v post h
    rw [h.1, firstIn_append, firstIn_none.2 h.2]; simp [firstIn]
  exact Option.some.inj ((e h).symm.trans (e h'))

theorem insert_kept {k : Str} {ds pre post : List HashData} {w : AliasedYaml} (h : FirstEntry k ds pre w post) (v : AliasedYaml) :
    Yaml.insertIntoHash (.key k [] none) v false (.hash ds) = (0, .hash ds) := by
  simp only [Yaml.insertIntoHash, Yaml.editHash, fits_no_condition, Yaml.keyIndex, h.findIdx, insertClosure, if_true,
    Bool.false_eq_true, if_false]

/-- What regrouping does to one hash. -/
theorem moveToMapAt_any {old sel new : Str} {keeps : List Str} {ds : List HashData} (ho : CleanKey old) (hsel : CleanKey sel)
    (hnew : CleanKey new) :
    (moveToMapAt old sel new keeps (.hash ds) = .ok (0, .hash ds) ∧ NothingToMove old sel keeps ds) ∨
    ∃ ds', moveToMapAt old sel new keeps (.hash ds) = .ok (1, .hash ds') ∧
      ((new ∉ keysOf ds ∧ Regrouped old sel new keeps ds ds') ∨ (new ∈ keysOf ds ∧ GroupsLost old sel keeps ds ds')) := by
  simp only [moveToMapAt, Yaml.keyValue]
  cases hk : keyValueIn old ds with
  | none =>
    refine .inl ⟨rfl, fun pre a od post h => ?_⟩
    rw [firstIn_eq, h.1, firstIn_append, firstIn_none.2 h.2] at hk
    simp [firstIn] at hk
  | some v =>
    obtain ⟨a, v⟩ := v
    obtain ⟨pre, post, hfe⟩ := keyValueIn_spec _ _ _ hk
    have hun : ∀ {pre' a' od' post'}, FirstEntry old ds pre' ⟨a', .hash od'⟩ post' → v = .hash od' := fun h => by
      have := FirstEntry.value_unique hfe h
      simp only [AliasedYaml.mk.injEq] at this
      exact this.2
    cases v with
    | hash od =>
      obtain ⟨st', h1, h2, h3, h4, h5⟩ := moveToMapLoop_eq hsel keeps od ⟨[], [], [], none⟩ (by simp [names]) (by nofun)
      simp only [h1, Out.bind_ok]
      have h7 : (moveToMapFinish st').2 = itemsOf sel keeps od none := by
        rw [h4]; simp [only, itemsFrom, itemsOf]
      split
      · rename_i he
        refine .inl ⟨rfl, fun pre' a' od' post' h k v hm => ?_⟩
        cases hun h
        cases hg : groupOf sel keeps ⟨k, v⟩ with
        | none => rfl
        | some s =>
          have := (h3 s).2 (.inr ⟨k, v, hm, hg⟩)
          simp [names, List.isEmpty_iff.1 he] at this
      · right
        rcases first_or new ds with hn | ⟨npre, w, npost, hn⟩
        · simp only [parsePathUnwrap_key hnew, parsePathUnwrap_key ho, Out.bind_ok, insert_new hn]
          have hfe' : ∀ w, FirstEntry old (ds ++ [.element ⟨new, w⟩]) pre ⟨a, .hash od⟩ (post ++ [.element ⟨new, w⟩]) :=
            fun w => ⟨by rw [hfe.1]; simp, hfe.2⟩
          simp only [insert_old (hfe' _)]
          refine ⟨_, rfl, .inl ⟨hn, ?_⟩⟩
          have h6 := groups_map h2 (f := fun g => itemsOf sel keeps od (some g)) (fun s => by
            rw [h5]; simp [only, look, itemsFrom, itemsOf])
          rw [h6, h7]
          have := Regrouped.intro (sel := sel) (keeps := keeps) (new := new) (gs := names (moveToMapFinish st').1) hfe h2
            (fun g => by rw [h3]; simp [names])
          simpa using this
        · simp only [parsePathUnwrap_key hnew, parsePathUnwrap_key ho, Out.bind_ok, insert_kept hn, insert_old hfe]
          refine ⟨_, rfl, .inr ⟨by rw [hn.1]; simp [keysOf], ?_⟩⟩
          rw [h7]
          exact .intro hfe
    | _ => exact .inl ⟨rfl, fun pre' a' od' post' h => by cases hun h⟩

theorem moveToMapAt_eq {old sel new : Str} {keeps : List Str} {ds : List HashData} (ho : CleanKey old) (hsel : CleanKey sel)
    (hnew : CleanKey new) (hn : new ∉ keysOf ds) :
    (moveToMapAt old sel new keeps (.hash ds) = .ok (0, .hash ds) ∧ NothingToMove old sel keeps ds) ∨
    ∃ ds', moveToMapAt old sel new keeps (.hash ds) = .ok (1, .hash ds') ∧ Regrouped old sel new keeps ds ds' := by
  rcases moveToMapAt_any (keeps := keeps) (ds := ds) ho hsel hnew with h | ⟨ds', h, ⟨-, h'⟩ | ⟨h', -⟩⟩
  · exact .inl h
  · exact .inr ⟨ds', h, h'⟩
  · exact absurd h' hn

/-- **C27.** Regrouping a map of a block hash, everywhere in a document: as many hashes are changed as the result says, each by
splitting the items of the map into the groups. If there is an entry with the name of the new map already, it stays as it is, and the
groups are lost. -/
theorem C27_move_to_map (d : Document) (path : YamlPath) {old sel new : Str} {keeps : List Str} {n : Nat} (ho : CleanKey old)
    (hsel : CleanKey sel) (hnew : CleanKey new) (h : (d.moveToMap path old sel new keeps).1 = .ok n) :
    DocEdits (fun ds ds' => (new ∉ keysOf ds ∧ Regrouped old sel new keeps ds ds') ∨ (new ∈ keysOf ds ∧ GroupsLost old sel keeps ds ds'))
      n d (d.moveToMap path old sel new keeps).2 := by
  have hg : EditsBy outCounting (fun ds ds' => (new ∉ keysOf ds ∧ Regrouped old sel new keeps ds ds') ∨
      (new ∈ keysOf ds ∧ GroupsLost old sel keeps ds ds')) (Yaml.moveToMap path old sel new keeps) := by
    intro v m hm
    obtain ⟨ls, hl, he⟩ := moveToMap_editsBy path old sel new keeps v m hm
    refine ⟨ls, hl, he.mono fun ds ds' hmv => ?_⟩
    rcases moveToMapAt_any ho hsel hnew with ⟨h, -⟩ | ⟨ds'', h, hm⟩
    · rw [MovesToMap, h] at hmv; simp at hmv
    · rw [MovesToMap, h] at hmv
      simp only [Out.ok.injEq, Prod.mk.injEq, Yaml.hash.injEq, true_and] at hmv
      subst hmv
      exact hm
  exact overItems_edits hg d n (by simp only [Document.moveToMap] at h; rw [h]; rfl)

/-- **C27, one hash.** -/
theorem C27_move_to_map_root {old sel new : Str} {keeps : List Str} {ds : List HashData} (ho : CleanKey old)
    (hsel : CleanKey sel) (hnew : CleanKey new) (hn : new ∉ keysOf ds) :
    (Yaml.moveToMap (.root []) old sel new keeps (.hash ds) = (.ok 0, .hash ds) ∧ NothingToMove old sel keeps ds) ∨
    ∃ ds', Yaml.moveToMap (.root []) old sel new keeps (.hash ds) = (.ok 1, .hash ds') ∧ Regrouped old sel new keeps ds ds' := by
  have hr : Yaml.moveToMap (.root []) old sel new keeps (.hash ds) =
      countedEdit (.hash ds) (moveToMapAt old sel new keeps (.hash ds)) := rfl
  rw [hr]
  rcases moveToMapAt_eq (keeps := keeps) ho hsel hnew hn with ⟨h, h0⟩ | ⟨ds', h, hm⟩
  · exact .inl ⟨by rw [h]; rfl, h0⟩
  · exact .inr ⟨ds', by rw [h]; rfl, hm⟩

/-! ### the groups are a partition -/

theorem groups_snd (sel : Str) (keeps : List Str) (last : Option Str) (od : List HashData) :
    (groups sel keeps last od).map Prod.snd = od := by
  induction od generalizing last with
  | nil => rfl
  | cons d t ih => cases d <;> simp [groups, ih]

theorem nextGroup_mem {sel : Str} {keeps : List Str} {last : Option Str} {g : Str} (t : List HashData)
    (h : nextGroup sel keeps last t = some g) :
    last = some g ∨ ∃ k v, HashData.element ⟨k, v⟩ ∈ t ∧ groupOf sel keeps ⟨k, v⟩ = some g := by
  induction t with
  | nil => exact .inl h
  | cons d t ih =>
    cases d with
    | element e => obtain ⟨k, v⟩ := e; exact .inr ⟨k, v, List.mem_cons_self .., h⟩
    | comment s =>
      rcases ih h with h | ⟨k, v, h, h'⟩
      · exact .inl h
      · exact .inr ⟨k, v, by simp [h], h'⟩
    | inlineComment s =>
      rcases ih h with h | ⟨k, v, h, h'⟩
      · exact .inl h
      · exact .inr ⟨k, v, by simp [h], h'⟩

theorem groups_fst {sel : Str} {keeps : List Str} {last : Option Str} {od : List HashData} {g : Str} {d : HashData}
    (h : (some g, d) ∈ groups sel keeps last od) :
    last = some g ∨ ∃ k v, HashData.element ⟨k, v⟩ ∈ od ∧ groupOf sel keeps ⟨k, v⟩ = some g := by
  have more : ∀ {c : HashData} {t : List HashData} {last : Option Str},
      (last = some g ∨ ∃ k v, HashData.element ⟨k, v⟩ ∈ t ∧ groupOf sel keeps ⟨k, v⟩ = some g) →
      last = some g ∨ ∃ k v, HashData.element ⟨k, v⟩ ∈ c :: t ∧ groupOf sel keeps ⟨k, v⟩ = some g := by
    rintro c t last (h | ⟨k, v, h, h'⟩)
    · exact .inl h
    · exact .inr ⟨k, v, by simp [h], h'⟩
  induction od generalizing last with
  | nil => simp [groups] at h
  | cons c t ih =>
    cases c with
    | element e =>
      obtain ⟨k₀, v₀⟩ := e
      simp only [groups, List.mem_cons, Prod.mk.injEq] at h
      rcases h with ⟨h, -⟩ | h
      · exact .inr ⟨k₀, v₀, List.mem_cons_self .., h.symm⟩
      · rcases ih h with h | ⟨k, v, h, h'⟩
        · exact .inr ⟨k₀, v₀, List.mem_cons_self .., h⟩
        · exact .inr ⟨k, v, by simp [h], h'⟩
    | comment s =>
      simp only [groups, List.mem_cons, Prod.mk.injEq] at h
      rcases h with ⟨h, -⟩ | h
      · exact more (nextGroup_mem t h.symm)
      · exact more (ih h)
    | inlineComment s =>
      simp only [groups, List.mem_cons, Prod.mk.injEq] at h
      rcases h with ⟨h, -⟩ | h
      · exact more (nextGroup_mem t h.symm)
      · exact more (ih h)

theorem perm_one {α β : Type} [DecidableEq α] {gs : List α} (hn : gs.Nodup) {a : α} (ha : a ∈ gs) (y : β) (r : α → List β) :
    ((gs.map fun g => (if a = g then [y] else []) ++ r g).flatten).Perm (y :: (gs.map r).flatten) := by
  induction gs with
  | nil => simp at ha
  | cons g gs ih =>
    rw [List.nodup_cons] at hn
    simp only [List.map_cons, List.flatten_cons]
    by_cases h : a = g
    · subst h
      have : (gs.map fun g => (if a = g then [y] else []) ++ r g) = gs.map r := by
        apply List.map_congr_left
        intro g hg
        have : a ≠ g := by rintro rfl; exact hn.1 hg
        simp [this]
      rw [this]
      simp
    · have ha' : a ∈ gs := by
        rcases List.mem_cons.1 ha with ha | ha
        · exact absurd ha h
        · exact ha
      simp only [h, if_false, List.nil_append]
      refine (List.Perm.append_left _ (ih hn.2 ha')).trans ?_
      exact List.perm_middle

theorem perm_groups {α β γ : Type} [DecidableEq α] {gs : List α} (hn : gs.Nodup) (f : γ → β) (l : List (α × γ))
    (hl : ∀ x ∈ l, x.1 ∈ gs) :
    ((gs.map fun g => l.filterMap fun x => if x.1 = g then some (f x.2) else none).flatten).Perm (l.map fun x => f x.2) := by
  induction l with
  | nil =>
    simp only [List.filterMap_nil, List.map_nil]
    induction gs with
    | nil => exact .nil
    | cons g gs ih => rw [List.nodup_cons] at hn; exact ih hn.2 (by simp)
  | cons x l ih =>
    have : (gs.map fun g => (x :: l).filterMap fun x => if x.1 = g then some (f x.2) else none) =
        gs.map fun g => (if x.1 = g then [f x.2] else []) ++ l.filterMap fun x => if x.1 = g then some (f x.2) else none := by
      apply List.map_congr_left
      intro g hg
      by_cases h : x.1 = g <;> simp [h]
    rw [this]
    refine (perm_one hn (hl x (by simp)) _ _).trans ?_
    rw [List.map_cons]
    exact (ih fun x hx => hl x (by simp [hx])).cons _

/-- **C27, nothing is lost.** The items of the old map and of the groups of the new map together are the items the old map had,
without their selector fields, each once. -/
theorem C27_partition (sel : Str) (keeps : List Str) (od : List HashData) {gs : List Str} (hs : gs.Pairwise Less)
    (hn : ∀ g, g ∈ gs ↔ ∃ k v, HashData.element ⟨k, v⟩ ∈ od ∧ groupOf sel keeps ⟨k, v⟩ = some g) :
    (itemsOf sel keeps od none ++ (gs.map fun g => itemsOf sel keeps od (some g)).flatten).Perm (od.map (strip sel)) := by
  have hnd : (none :: gs.map some : List (Option Str)).Nodup := by
    rw [List.nodup_cons]
    refine ⟨by simp, ?_⟩
    rw [List.nodup_iff_pairwise_ne, List.pairwise_map]
    exact hs.imp fun h h' => by cases h'; exact less_irrefl _ h
  have := perm_groups hnd (strip sel) (groups sel keeps none od) (fun x hx => by
    obtain ⟨o, d⟩ := x
    cases o with
    | none => simp
    | some g =>
      rcases groups_fst hx with h | h
      · cases h
      · simp [(hn g).2 h])
  have e : (groups sel keeps none od).map (fun x => strip sel x.2) = od.map (strip sel) := by
    conv => rhs; rw [← groups_snd sel keeps none od]
    simp
  rw [e] at this
  simpa [itemsOf, Function.comp_def] using this

/-- Groups, kept entries, an entry without selector, comments. -/
example : Yaml.moveToMap (.root []) c!"m" c!"t" c!"n" [c!"k"]
      (.hash [.element ⟨c!"m", ⟨none, .hash [.comment c!"1",
        .element ⟨c!"a", ⟨none, .hash [.element ⟨c!"t", ⟨none, .unquotedString c!"y"⟩⟩, .element ⟨c!"u", ⟨none, .unquotedString c!"2"⟩⟩]⟩⟩,
        .element ⟨c!"b", ⟨none, .hash [.element ⟨c!"t", ⟨none, .unquotedString c!"k"⟩⟩]⟩⟩,
        .element ⟨c!"c", ⟨none, .hash [.element ⟨c!"v", ⟨none, .unquotedString c!"3"⟩⟩]⟩⟩,
        .element ⟨c!"d", ⟨none, .hash [.element ⟨c!"t", ⟨none, .unquotedString c!"x"⟩⟩]⟩⟩, .comment c!"4"]⟩⟩,
        .element ⟨c!"z", ⟨none, .unquotedString c!"5"⟩⟩]) =
    (.ok 1, .hash [.element ⟨c!"m", ⟨none, .hash [.element ⟨c!"b", ⟨none, .hash []⟩⟩,
        .element ⟨c!"c", ⟨none, .hash [.element ⟨c!"v", ⟨none, .unquotedString c!"3"⟩⟩]⟩⟩]⟩⟩,
        .element ⟨c!"z", ⟨none, .unquotedString c!"5"⟩⟩,
        .element ⟨c!"n", ⟨none, .hash [
          .element ⟨c!"x", ⟨none, .hash [.element ⟨c!"d", ⟨none, .hash []⟩⟩, .comment c!"4"]⟩⟩,
          .element ⟨c!"y", ⟨none, .hash [.comment c!"1", .element ⟨c!"a", ⟨none, .hash [.element ⟨c!"u", ⟨none, .unquotedString c!"2"⟩⟩]⟩⟩]⟩⟩]⟩⟩]) := by
  kernel_rfl

/-- Counterexample to C27: a new map that exists already; the moved entry is lost. -/
theorem C27_counterexample_new_map_exists :
    Yaml.moveToMap (.root []) c!"m" c!"t" c!"n" []
      (.hash [.element ⟨c!"m", ⟨none, .hash [
        .element ⟨c!"a", ⟨none, .hash [.element ⟨c!"t", ⟨none, .unquotedString c!"y"⟩⟩]⟩⟩]⟩⟩,
        .element ⟨c!"n", ⟨none, .hash []⟩⟩]) =
    (.ok 1, .hash [.element ⟨c!"m", ⟨none, .hash []⟩⟩, .element ⟨c!"n", ⟨none, .hash []⟩⟩]) := by kernel_rfl

/-- A finding: the anchor of the old map is copied to the new map. -/
theorem C27_anchor_copied :
    Yaml.moveToMap (.root []) c!"m" c!"t" c!"n" []
      (.hash [.element ⟨c!"m", ⟨some c!"x", .hash [
        .element ⟨c!"a", ⟨none, .hash [.element ⟨c!"t", ⟨none, .unquotedString c!"y"⟩⟩]⟩⟩]⟩⟩]) =
    (.ok 1, .hash [.element ⟨c!"m", ⟨some c!"x", .hash []⟩⟩,
      .element ⟨c!"n", ⟨some c!"x", .hash [.element ⟨c!"y", ⟨none, .hash [.element ⟨c!"a", ⟨none, .hash []⟩⟩]⟩⟩]⟩⟩]) := by
  kernel_rfl

end YamlSubset
